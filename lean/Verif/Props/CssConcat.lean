import Verif.Lemmas.CssConcat
import Verif.Props.CssDistance
import Verif.Props.CSS
import Verif.Props.Concat

/-!
# Property C80: stacking and concatenation of CSS codes

Theorems are about the model of `CSSCode.stack` and `CSSCode.concatenate` in `Verif/Model/CssConcat.lean`.
They apply to every `CSSCode` object that satisfies `CssOk` (`Verif/Props/CssDistance.lean`): stabilizer
codes and subsystem codes, with or without cached logical operators and distances.
-/

set_option linter.unusedSectionVars false

namespace QLDPC.Props

open QLDPC QLDPC.Spec

variable {F : Type} [Field F] [DecidableEq F] {n m : ℕ}

/-! ## Distances from weights -/

/-- There is a nontrivial X-type operator of weight at most `k`. -/
def XWeight (hx hz : Rows F n) (k : ℕ) : Prop := ∃ v, IsNontrivialX hx hz v ∧ hammingNorm v ≤ k

theorem xWeight_iff (hx hz : Rows F n) (k : ℕ) : XWeight hx hz k ↔ ∃ d ≤ k, IsXDistance hx hz d := by
  constructor
  · rintro ⟨v, hv, hk⟩
    have hne : {k | ∃ v, IsNontrivialX hx hz v ∧ k = hammingNorm v}.Nonempty := ⟨_, v, hv, rfl⟩
    refine ⟨_, ?_, Nat.sInf_mem hne, fun x hx => Nat.sInf_le hx⟩
    exact (Nat.sInf_le (show hammingNorm v ∈ {k | ∃ v, IsNontrivialX hx hz v ∧ k = hammingNorm v} from
      ⟨v, hv, rfl⟩)).trans hk
  · rintro ⟨d, hk, ⟨v, hv, rfl⟩, _⟩; exact ⟨v, hv, hk⟩

theorem isXDistance_iff_weight (hx hz : Rows F n) (d : ℕ) :
    IsXDistance hx hz d ↔ XWeight hx hz d ∧ ∀ k < d, ¬ XWeight hx hz k := by
  constructor
  · intro h
    refine ⟨(xWeight_iff _ _ _).2 ⟨d, le_refl d, h⟩, ?_⟩
    rintro k hk ⟨v, hv, hvk⟩
    have := h.2 ⟨v, hv, rfl⟩
    omega
  · rintro ⟨h1, h2⟩
    obtain ⟨e, he, hd⟩ := (xWeight_iff _ _ _).1 h1
    rcases Nat.lt_or_ge e d with h | h
    · exact absurd ((xWeight_iff _ _ _).2 ⟨e, le_refl e, hd⟩) (h2 e h)
    · have : e = d := by omega
      exact this ▸ hd

theorem xDistanceIs_iff_weight (hx hz : Rows F n) (d : Option ℕ) : XDistanceIs hx hz d ↔
    match d with
    | none => ∀ k, ¬ XWeight hx hz k
    | some d => XWeight hx hz d ∧ ∀ k < d, ¬ XWeight hx hz k := by
  cases d with
  | none =>
    exact ⟨fun h k ⟨v, hv, _⟩ => h v hv, fun h v hv => h _ ⟨v, hv, le_refl _⟩⟩
  | some d => exact isXDistance_iff_weight hx hz d

theorem xDistanceIs_congr {hx hz : Rows F n} {kx kz : Rows F m} :
    (∀ k, XWeight hx hz k ↔ XWeight kx kz k) ↔ ∀ d, XDistanceIs hx hz d ↔ XDistanceIs kx kz d := by
  constructor
  · intro h d
    rw [xDistanceIs_iff_weight, xDistanceIs_iff_weight]
    simp only [h]
  · intro h k
    rw [xWeight_iff, xWeight_iff]
    exact exists_congr fun d => and_congr_right fun _ => h (some d)

/-! ## Setting logical operators -/

theorem cssCode_setLogicalOpsXZ {c : CssCode F n} {LX LZ : Rows F n}
    (h : IsCssLogicalBasis c.hx c.hz LX LZ) (hk : LX.length = c.dimension) :
    c.setLogicalOpsXZ LX LZ = .ok { c with logicals? := some (LX, LZ) } := by
  obtain ⟨c', e⟩ := C21_accepts ({ matrix := blockDiag2 c.hx c.hz, isSub := c.isSub, dim? := some c.dimension } :
    QCode F n) _ _ (isLogicalBasis_of_css h) (by simpa [QCode.dimension] using hk)
  unfold CssCode.setLogicalOpsXZ
  dsimp only
  rw [show blockDiag2 LX LZ = LX.map (fun r => Fin.append r 0) ++ LZ.map (fun r => Fin.append 0 r) from rfl, e]
  rfl

theorem CssOk.ofLogicals {c : CssCode F n} (h : CssOk c) {LX LZ : Rows F n} (hL : CssComplete c.hx c.hz LX LZ) :
    CssOk { c with logicals? := some (LX, LZ) } := by
  refine ⟨h.sub, ?_, h.eqXZ, h.distX, h.distZ, h.dist⟩
  intro L e
  cases e
  exact ⟨hL.basis, hL.length_eq h.sub⟩

/-! ## Stacking -/

theorem cssOk_stackBase (codes : List (AnyCss F)) (h : ∀ c ∈ codes, CssOk c.2) : CssOk (stackCssBase codes) := by
  refine cssOk_ofMatrices _ _ _ _ ?_ ?_
  · intro hs
    refine (css_commute_list codes).2 fun c hc => (h c hc).sub ?_
    rw [Option.some_inj, List.any_eq_false] at hs
    simpa using hs c hc
  · intro hp
    rw [← xDistanceIs_congr]
    intro k
    unfold XWeight
    rw [css_weights_list codes (fun _ c => c.hx) (fun _ c => c.hz),
      css_weights_list codes (fun _ c => c.hz) (fun _ c => c.hx)]
    refine exists_congr fun c => and_congr_right fun hc => ?_
    rw [List.all_eq_true] at hp
    exact xDistanceIs_congr.2 ((h c hc).eqXZ (hp c hc)) k

theorem logicalsOf_eq {c : CssCode F n} {LX LZ : Rows F n} (h : c.logicals = some (LX, LZ)) :
    c.logicalsOf .X = LX ∧ c.logicalsOf .Z = LZ := by
  unfold CssCode.logicalsOf
  rw [h]
  exact ⟨rfl, rfl⟩

theorem cssComplete_stack (codes : List (AnyCss F)) (h : ∀ c ∈ codes, CssOk c.2) :
    CssComplete (stackCssBase codes).hx (stackCssBase codes).hz
      (blocksDiag (fun _ c => c.logicalsOf .X) codes) (blocksDiag (fun _ c => c.logicalsOf .Z) codes) := by
  refine cssComplete_list codes (fun _ c => c.logicalsOf .X) (fun _ c => c.logicalsOf .Z) fun c hc => ?_
  obtain ⟨LX, LZ, h1, h2, -⟩ := (h c hc).logicals
  obtain ⟨e1, e2⟩ := logicalsOf_eq h1
  simp only [e1, e2]
  exact h2

theorem stackCss_eq (codes : List (AnyCss F)) (hne : codes ≠ []) (h : ∀ c ∈ codes, CssOk c.2) :
    stackCss codes true = .ok { stackCssBase codes with
      logicals? := some (blocksDiag (fun _ c => c.logicalsOf .X) codes,
        blocksDiag (fun _ c => c.logicalsOf .Z) codes) } := by
  have hc := cssComplete_stack codes h
  unfold stackCss
  rw [if_neg hne, if_pos rfl, if_pos]
  · refine cssCode_setLogicalOpsXZ hc.basis ?_
    exact hc.length_eq (sub := (stackCssBase codes).isSub) (cssOk_stackBase codes h).sub
  · rw [List.all_eq_true]
    intro c hc
    obtain ⟨LX, LZ, h1, -⟩ := (h c hc).logicals
    simp [h1]

/-- A list of good CSS codes can be stacked.  The stacked code has the X-type (Z-type) checks of the blocks on
disjoint sets of qudits, in order; its logical operators are those of the blocks and are complete; numbers of
qudits and of logical qudits add up; it is a good CSS code again (in particular, the inherited promise of
equal distances is true). -/
theorem C80_stack (codes : List (AnyCss F)) (hne : codes ≠ []) (h : ∀ c ∈ codes, CssOk c.2) :
    ∃ s, stackCss codes true = .ok s ∧ CssOk s ∧
      blocksLen codes = (codes.map Sigma.fst).sum ∧
      s.hx = bitBlocks 0 (codes.map fun c => ⟨c.1, c.2.hx⟩) ∧
      s.hz = bitBlocks 0 (codes.map fun c => ⟨c.1, c.2.hz⟩) ∧
      (∃ SX SZ, s.logicals = some (SX, SZ) ∧ IsCssComplete s.hx s.hz SX SZ ∧
        SX = bitBlocks 0 (codes.map fun c => ⟨c.1, c.2.logicalsOf .X⟩) ∧
        SZ = bitBlocks 0 (codes.map fun c => ⟨c.1, c.2.logicalsOf .Z⟩)) ∧
      s.dimension = (codes.map fun c => c.2.dimension).sum ∧
      s.isSub = (codes.any fun c => c.2.isSub) := by
  have hc := cssComplete_stack codes h
  refine ⟨_, stackCss_eq codes hne h, (cssOk_stackBase codes h).ofLogicals hc, blocksLen_eq codes,
    blocksDiag_eq _ _, blocksDiag_eq _ _, ⟨_, _, rfl, isCssComplete_iff.2 hc, blocksDiag_eq _ _, blocksDiag_eq _ _⟩,
    ?_, rfl⟩
  refine (length_blocksDiag (fun _ c => c.logicalsOf .X) codes).trans (congrArg _ ?_)
  refine List.map_congr_left fun c hc => ?_
  obtain ⟨LX, LZ, h1, -, -, h4⟩ := (h c hc).logicals
  rw [(logicalsOf_eq h1).1, h4]

/-- Without inherited logical operators: same checks, flag and dimension. -/
theorem C80_stack_fresh (codes : List (AnyCss F)) (hne : codes ≠ []) (h : ∀ c ∈ codes, CssOk c.2) :
    ∃ s, stackCss codes false = .ok s ∧ CssOk s ∧
      s.hx = bitBlocks 0 (codes.map fun c => ⟨c.1, c.2.hx⟩) ∧
      s.hz = bitBlocks 0 (codes.map fun c => ⟨c.1, c.2.hz⟩) ∧
      s.dimension = (codes.map fun c => c.2.dimension).sum ∧
      s.isSub = (codes.any fun c => c.2.isSub) ∧ s.logicals? = none := by
  refine ⟨stackCssBase codes, ?_, cssOk_stackBase codes h, blocksDiag_eq _ _, blocksDiag_eq _ _, ?_, rfl, rfl⟩
  · unfold stackCss
    rw [if_neg hne, if_neg (by simp)]
  · have hc := cssComplete_stack codes h
    refine (hc.length_eq (sub := (stackCssBase codes).isSub) (cssOk_stackBase codes h).sub).symm.trans ?_
    refine (length_blocksDiag (fun _ c => c.logicalsOf .X) codes).trans (congrArg _ ?_)
    refine List.map_congr_left fun c hc => ?_
    obtain ⟨LX, LZ, h1, -, -, h4⟩ := (h c hc).logicals
    rw [(logicalsOf_eq h1).1, h4]

theorem stack_distance_aux (codes : List (AnyCss F)) (X Z : ∀ n, CssCode F n → Rows F n) (d : ℕ) :
    IsXDistance (blocksDiag X codes) (blocksDiag Z codes) d ↔
      IsLeast {k | ∃ c ∈ codes, IsXDistance (X c.1 c.2) (Z c.1 c.2) k} d := by
  have hw : ∀ k, XWeight (blocksDiag X codes) (blocksDiag Z codes) k ↔
      ∃ c ∈ codes, XWeight (X c.1 c.2) (Z c.1 c.2) k := css_weights_list codes X Z
  rw [isXDistance_iff_weight]
  constructor
  · rintro ⟨h1, h2⟩
    have hmin : ∀ k ∈ {k | ∃ c ∈ codes, IsXDistance (X c.1 c.2) (Z c.1 c.2) k}, d ≤ k := by
      rintro k ⟨c, hc, hk⟩
      by_contra hlt
      exact h2 k (by omega) ((hw k).2 ⟨c, hc, ((isXDistance_iff_weight _ _ _).1 hk).1⟩)
    obtain ⟨c, hc, hcw⟩ := (hw d).1 h1
    obtain ⟨e, he, hd⟩ := (xWeight_iff _ _ _).1 hcw
    have := hmin e ⟨c, hc, hd⟩
    have e2 : e = d := by omega
    exact ⟨⟨c, hc, e2 ▸ hd⟩, hmin⟩
  · rintro ⟨⟨c, hc, hd⟩, hmin⟩
    refine ⟨(hw d).2 ⟨c, hc, ((isXDistance_iff_weight _ _ _).1 hd).1⟩, fun k hk hwk => ?_⟩
    obtain ⟨c', hc', hcw⟩ := (hw k).1 hwk
    obtain ⟨e, he, hd'⟩ := (xWeight_iff _ _ _).1 hcw
    have := hmin ⟨c', hc', hd'⟩
    omega

/-- The X-distance (Z-distance) of the stacked code is the smallest X-distance (Z-distance) of its blocks. -/
theorem C80_stack_distance (codes : List (AnyCss F)) (inherit : Bool) (s) (h : stackCss codes inherit = .ok s)
    (d : ℕ) :
    (IsXDistance s.hx s.hz d ↔ IsLeast {k | ∃ c ∈ codes, IsXDistance c.2.hx c.2.hz k} d) ∧
      (IsXDistance s.hz s.hx d ↔ IsLeast {k | ∃ c ∈ codes, IsXDistance c.2.hz c.2.hx k} d) := by
  have hm : s.hx = blocksDiag (fun _ c => c.hx) codes ∧ s.hz = blocksDiag (fun _ c => c.hz) codes := by
    unfold stackCss at h
    split at h
    · cases h
    · split at h
      · split at h
        · unfold CssCode.setLogicalOpsXZ at h
          dsimp only at h
          generalize QCode.setLogicalOps (F := F) _ _ _ = r at h
          cases r with
          | error => cases h
          | ok r => cases h; exact ⟨rfl, rfl⟩
        · cases h
      · cases h; exact ⟨rfl, rfl⟩
  rw [hm.1, hm.2]
  exact ⟨stack_distance_aux codes (fun _ c => c.hx) (fun _ c => c.hz) d,
    stack_distance_aux codes (fun _ c => c.hz) (fun _ c => c.hx) d⟩

/-! ## Concatenation -/

theorem copiesCss_spec (c : CssCode F n) (hc : CssOk c) (LX LZ : Rows F n) (hL : c.logicals = some (LX, LZ))
    (num : ℕ) (hn : 1 ≤ num) :
    ∃ (N : ℕ) (s : CssCode F N), copiesCss c num = .ok ⟨N, s⟩ ∧ N = n * num ∧ CssOk s ∧
      s.logicals = some (bitCopies num LX, bitCopies num LZ) ∧
      s.hx = bitCopies num c.hx ∧ s.hz = bitCopies num c.hz := by
  unfold copiesCss
  by_cases h1 : 1 < num
  · rw [if_pos h1]
    have hall : ∀ c' ∈ List.replicate num (⟨n, c⟩ : AnyCss F), CssOk c'.2 := fun c' hc' => by
      rw [List.eq_of_mem_replicate hc']; exact hc
    have e := stackCss_eq (List.replicate num ⟨n, c⟩) (by rw [Ne, List.replicate_eq_nil_iff]; omega) hall
    obtain ⟨eX, eZ⟩ := logicalsOf_eq hL
    refine ⟨_, _, by rw [e]; rfl, ?_, (cssOk_stackBase _ hall).ofLogicals (cssComplete_stack _ hall), ?_, ?_, ?_⟩
    · rw [blocksLen_eq, List.map_replicate, List.sum_replicate, smul_eq_mul, Nat.mul_comm]
    · change some _ = some _
      rw [blocksDiag_replicate, blocksDiag_replicate, eX, eZ]
    · exact blocksDiag_replicate (fun _ c => c.hx) num c
    · exact blocksDiag_replicate (fun _ c => c.hz) num c
  · have : num = 1 := by omega
    subst this
    rw [if_neg h1]
    refine ⟨n, c, rfl, (Nat.mul_one n).symm, hc, ?_, ?_, ?_⟩
    · rw [bitCopies_one, bitCopies_one]; exact hL
    · rw [bitCopies_one]
    · rw [bitCopies_one]

/-- Operator `t` of the stacked copies of a block of `n` qudits with operators `L`. -/
def copyBits {N : ℕ} (L : Rows F n) (t : ℕ) : Fin N → F := onBits (n * (t / L.length)) (L.getD (t % L.length) 0)

theorem indexList_copies {N num : ℕ} (L : Rows F n) (w : List ℕ) (hL : 0 < L.length)
    (hlt : ∀ i ∈ w, i < num * L.length) :
    indexList (bitCopies (N := N) num L) w = some (List.ofFn fun j : Fin w.length => copyBits L w[j]) := by
  obtain ⟨L', e, l1, g1⟩ := indexList_get (bitCopies (N := N) num L) w (by rw [length_bitCopies]; exact hlt)
  rw [e, Option.some_inj]
  apply List.ext_getElem (by simp [l1])
  intro i hi1 hi2
  have hiw : i < w.length := by omega
  have := g1 i hiw hi1
  have hb := hlt w[i] (List.getElem_mem _)
  rw [getElem?_bitCopies _ _ _ hb, List.getElem?_eq_getElem (Nat.mod_lt _ hL), Option.map_some,
    Option.some_inj] at this
  rw [← this, List.getElem_ofFn]
  unfold copyBits
  simp only [Fin.getElem_fin]
  rw [List.getD_eq_getElem _ _ (Nat.mod_lt _ hL)]

/-- Concatenation of good CSS codes along a permutation: the number of qudits is that of the copies of the
inner code, the X-type (Z-type) checks are those of the inner blocks and those of the outer blocks with
single-qudit operators replaced by the logical X (Z) operators of the inner blocks, the logical operators are
those of the outer blocks with the same replacement and form a complete set, and the number of logical qudits
is that of the outer blocks.  The result is a good CSS code, and is flagged as a subsystem code exactly if its
checks do not all commute.  If copies of the inner code were used, the caller's inner code is unchanged;
otherwise its logical operators were permuted, and it is still a good code.  Without `inherit_logicals` the
code has the same checks, flag and dimension. -/
theorem C80_concatenate (inner : CssCode F n) (outer : CssCode F m) (hi : CssOk inner) (ho : CssOk outer)
    (LX LZ : Rows F n) (KX KZ : Rows F m) (hL : inner.logicals = some (LX, LZ))
    (hK : outer.logicals = some (KX, KZ))
    (wiring? : Option (List ℕ)) (w : List ℕ) (hw : w = wiringOf m LX.length wiring?)
    (hperm : w.Perm (List.range w.length)) (hne : w ≠ [])
    (h1 : LX.length ∣ w.length) (h2 : m ∣ w.length) :
    ∃ (N : ℕ) (code : CssCode F N) (after : CssCode F n),
      concatenateCss inner outer wiring? true = .ok (⟨N, code⟩, after) ∧ CssOk code ∧ CssOk after ∧
      N = n * (w.length / LX.length) ∧
      (∃ X Z : Fin w.length → Fin N → F,
        (∀ j, X j = copyBits LX w[j]) ∧ (∀ j, Z j = copyBits LZ w[j]) ∧
        code.hx = bitCopies (w.length / LX.length) inner.hx ++
          (bitCopies (w.length / m) outer.hx).map (encodeBits X) ∧
        code.hz = bitCopies (w.length / LX.length) inner.hz ++
          (bitCopies (w.length / m) outer.hz).map (encodeBits Z) ∧
        code.logicals = some ((bitCopies (w.length / m) KX).map (encodeBits X),
          (bitCopies (w.length / m) KZ).map (encodeBits Z)) ∧
        IsCssComplete code.hx code.hz ((bitCopies (w.length / m) KX).map (encodeBits X))
          ((bitCopies (w.length / m) KZ).map (encodeBits Z))) ∧
      code.dimension = outer.dimension * (w.length / m) ∧
      (code.isSub = false ↔ ∀ x ∈ code.hx, ∀ z ∈ code.hz, ∑ q, x q * z q = 0) ∧
      (if 1 < w.length / LX.length then after = inner else
        after.hx = inner.hx ∧ after.hz = inner.hz ∧ ∃ LX' LZ', indexList LX w = some LX' ∧
          indexList LZ w = some LZ' ∧ after.logicals = some (LX', LZ')) ∧
      ∃ fresh : CssCode F N, concatenateCss inner outer wiring? false = .ok (⟨N, fresh⟩, after) ∧
        CssOk fresh ∧ fresh.hx = code.hx ∧ fresh.hz = code.hz ∧ fresh.isSub = code.isSub ∧
        fresh.dimension = code.dimension ∧ fresh.logicals? = none := by
  have hwl : 0 < w.length := List.length_pos_iff.2 hne
  have hk : 0 < LX.length := Nat.pos_of_dvd_of_pos h1 hwl
  have hm : 0 < m := Nat.pos_of_dvd_of_pos h2 hwl
  obtain ⟨hdim, hci⟩ : inner.dimension = LX.length ∧ CssComplete inner.hx inner.hz LX LZ := by
    obtain ⟨A, B, e, e2, -, e3⟩ := hi.logicals
    rw [hL] at e; cases e; exact ⟨e3, e2⟩
  obtain ⟨hdimo, hco⟩ : outer.dimension = KX.length ∧ CssComplete outer.hx outer.hz KX KZ := by
    obtain ⟨A, B, e, e2, -, e3⟩ := ho.logicals
    rw [hK] at e; cases e; exact ⟨e3, e2⟩
  have hlenZ : LZ.length = LX.length := hci.basis.len.symm
  have hbi : w.length / LX.length * LX.length = w.length := Nat.div_mul_cancel h1
  have hbo : w.length / m * m = w.length := Nat.div_mul_cancel h2
  have hbi1 : 1 ≤ w.length / LX.length := (Nat.one_le_div_iff hk).2 (Nat.le_of_dvd hwl h1)
  have hbo1 : 1 ≤ w.length / m := (Nat.one_le_div_iff hm).2 (Nat.le_of_dvd hwl h2)
  obtain ⟨N, si, ei, hN, hoki, hli, hxi, hzi⟩ := copiesCss_spec inner hi LX LZ hL _ hbi1
  obtain ⟨N', so, eo, hN', hoko, hlo, hxo, hzo⟩ := copiesCss_spec outer ho KX KZ hK _ hbo1
  have hN'' : N' = w.length := by rw [hN', Nat.mul_comm]; exact hbo
  subst hN''
  have hlt : ∀ i ∈ w, i < w.length := fun i hi => List.mem_range.1 (hperm.mem_iff.1 hi)
  have eX := indexList_copies (N := N) (num := w.length / LX.length) LX w hk (by rw [hbi]; exact hlt)
  have eZ := indexList_copies (N := N) (num := w.length / LX.length) LZ w (by omega) (by rw [hlenZ, hbi]; exact hlt)
  have hcsi : CssComplete si.hx si.hz (bitCopies (w.length / LX.length) LX) (bitCopies (w.length / LX.length) LZ) := by
    obtain ⟨A, B, e, e2, -⟩ := hoki.logicals
    rw [hli] at e; cases e; exact e2
  have hcso : CssComplete so.hx so.hz (bitCopies (w.length / m) KX) (bitCopies (w.length / m) KZ) := by
    obtain ⟨A, B, e, e2, -⟩ := hoko.logicals
    rw [hlo] at e; cases e; exact e2
  have hval := cssComplete_wiring hcsi w (by rw [length_bitCopies, hbi]; exact hperm) eX eZ
  have hpl : si.logicals.bind (permuteLogicalsXZ w) =
      some (List.ofFn fun j : Fin w.length => copyBits LX w[j], List.ofFn fun j : Fin w.length => copyBits LZ w[j]) := by
    rw [hli, Option.bind_some]
    unfold permuteLogicalsXZ
    rw [eX, eZ]
    rfl
  set X := fun j : Fin w.length => (copyBits LX w[j] : Fin N → F) with hXdef
  set Z := fun j : Fin w.length => (copyBits LZ w[j] : Fin N → F) with hZdef
  clear_value X Z
  have hexp : ∀ (R : Rows F w.length) (Y : Fin w.length → Fin N → F),
      expandBits R (List.ofFn Y) = some (R.map (encodeBits Y)) := by
    intro R Y
    unfold expandBits
    rw [if_pos (by simp)]
    congr 1
    exact List.map_congr_left fun r _ => vecMat_ofFn r Y
  have hcl := cssComplete_concat hval hcso
  have hg : CssCode.logicals { si with logicals? := some (List.ofFn X, List.ofFn Z) } =
      some (List.ofFn X, List.ofFn Z) := rfl
  have hstd : standardizeCss inner outer wiring? = .ok (⟨N, { si with logicals? := some (List.ofFn X, List.ofFn Z) }⟩,
      ⟨w.length, so⟩, if 1 < w.length / LX.length then inner else
        { inner with logicals? := inner.logicals.bind (permuteLogicalsXZ w) }) := by
    have hz : ¬ (inner.dimension = 0 ∨ m = 0) := by rw [hdim]; omega
    have hwm : resolveWiring m inner.dimension wiring? = .ok w := by
      cases wiring? with
      | none => rw [hw, hdim]; rfl
      | some w' =>
        have : w = w' := hw
        subst this
        unfold resolveWiring
        dsimp only
        rw [if_neg hz, if_neg]
        rw [hdim, Nat.mod_eq_zero_of_dvd h1, Nat.mod_eq_zero_of_dvd h2]
        simp
    unfold standardizeCss
    rw [hwm]
    change (if inner.dimension = 0 ∨ m = 0 then _ else _) = _
    rw [if_neg hz, hdim, ei]
    change (copiesCss outer (w.length / m) >>= _) = _
    rw [eo]
    simp only [bind, Except.bind]
    rw [hpl]
  have hfresh : CssOk (CssCode.ofMatrices (si.hx ++ so.hx.map (encodeBits X)) (si.hz ++ so.hz.map (encodeBits Z))) :=
    cssOk_ofMatrices _ _ none false (by simp) (by simp)
  have hafter : ¬ 1 < w.length / LX.length → ∃ LX' LZ', indexList LX w = some LX' ∧ indexList LZ w = some LZ' ∧
      inner.logicals.bind (permuteLogicalsXZ w) = some (LX', LZ') ∧ CssComplete inner.hx inner.hz LX' LZ' := by
    intro hone
    have hwk : w.length = LX.length := by
      have : w.length / LX.length = 1 := by omega
      rw [← hbi, this, Nat.one_mul]
    obtain ⟨A, a1, -⟩ := indexList_get LX w (by rw [← hwk]; exact hlt)
    obtain ⟨B, b1, -⟩ := indexList_get LZ w (by rw [hlenZ, ← hwk]; exact hlt)
    refine ⟨A, B, a1, b1, ?_, cssComplete_wiring hci w (by rw [← hwk]; exact hperm) a1 b1⟩
    rw [hL, Option.bind_some]
    unfold permuteLogicalsXZ
    rw [a1, b1]
    rfl
  refine ⟨N, { CssCode.ofMatrices (si.hx ++ so.hx.map (encodeBits X)) (si.hz ++ so.hz.map (encodeBits Z)) with
      logicals? := some ((bitCopies (w.length / m) KX).map (encodeBits X), (bitCopies (w.length / m) KZ).map (encodeBits Z)) },
    if 1 < w.length / LX.length then inner else
      { inner with logicals? := inner.logicals.bind (permuteLogicalsXZ w) },
    ?_, hfresh.ofLogicals hcl, ?_, hN, ⟨X, Z, ?_, ?_, ?_, ?_, rfl, isCssComplete_iff.2 hcl⟩, ?_, ?_, ?_,
    CssCode.ofMatrices (si.hx ++ so.hx.map (encodeBits X)) (si.hz ++ so.hz.map (encodeBits Z)), ?_, hfresh, rfl, rfl,
    rfl, ?_, rfl⟩
  · unfold concatenateCss
    rw [hstd]
    simp only [bind, Except.bind]
    rw [hg]
    dsimp only
    rw [hexp, hexp]
    dsimp only
    rw [if_pos trivial, hlo]
    dsimp only [Option.bind]
    rw [hexp, hexp]
    rfl
  · split
    · exact hi
    · rename_i hone
      obtain ⟨A, B, -, -, e, hc⟩ := hafter hone
      rw [e]
      exact hi.ofLogicals hc
  · intro j; rw [hXdef]
  · intro j; rw [hZdef]
  · rw [← hxi, ← hxo]; rfl
  · rw [← hzi, ← hzo]; rfl
  · change ((bitCopies (w.length / m) KX).map (encodeBits X)).length = _
    rw [List.length_map, length_bitCopies, hdimo, Nat.mul_comm]
  · change (List.any _ _) = false ↔ _
    rw [List.any_eq_false]
    refine forall_congr' fun x => imp_congr_right fun _ => ?_
    rw [Bool.not_eq_true, List.any_eq_false]
    refine forall_congr' fun z => imp_congr_right fun _ => ?_
    rw [decide_eq_true_eq, not_not]
    rfl
  · split
    · rfl
    · rename_i hone
      obtain ⟨A, B, a1, b1, e, -⟩ := hafter hone
      rw [e]
      exact ⟨rfl, rfl, A, B, a1, b1, rfl⟩
  · unfold concatenateCss
    rw [hstd]
    simp only [bind, Except.bind]
    rw [hg]
    dsimp only
    rw [hexp, hexp]
    dsimp only
    rw [if_neg (by simp)]
  · exact (hcl.length_eq (sub := (CssCode.ofMatrices (si.hx ++ so.hx.map (encodeBits X))
      (si.hz ++ so.hz.map (encodeBits Z))).isSub) hfresh.sub).symm

/-- If the qudits of each outer block are logical qudits of different inner blocks, then the X-distance
(Z-distance) of the concatenated code is at least the product of the X-distances (Z-distances). -/
theorem C80_distance (inner : CssCode F n) (outer : CssCode F m) (hi : CssOk inner) (ho : CssOk outer)
    (wiring? : Option (List ℕ)) (w : List ℕ) (hw : w = wiringOf m inner.dimension wiring?)
    (hperm : w.Perm (List.range w.length)) (hne : w ≠ [])
    (h1 : inner.dimension ∣ w.length) (h2 : m ∣ w.length)
    (hspread : ∀ (i j : ℕ) (hi : i < w.length) (hj : j < w.length), i / m = j / m →
      w[i] / inner.dimension = w[j] / inner.dimension → i = j)
    (inherit : Bool) (code : AnyCss F) (after : CssCode F n)
    (hcode : concatenateCss inner outer wiring? inherit = .ok (code, after)) :
    (∀ d1 d2, IsXDistance inner.hx inner.hz d1 → IsXDistance outer.hx outer.hz d2 →
      ∀ v, IsNontrivialX code.2.hx code.2.hz v → d1 * d2 ≤ hammingNorm v) ∧
    ∀ d1 d2, IsXDistance inner.hz inner.hx d1 → IsXDistance outer.hz outer.hx d2 →
      ∀ v, IsNontrivialX code.2.hz code.2.hx v → d1 * d2 ≤ hammingNorm v := by
  obtain ⟨LX, LZ, hL, hci, -, hdim⟩ := hi.logicals
  obtain ⟨KX, KZ, hK, -⟩ := ho.logicals
  rw [hdim] at hw h1 hspread
  have hwl : 0 < w.length := List.length_pos_iff.2 hne
  have hk : 0 < LX.length := Nat.pos_of_dvd_of_pos h1 hwl
  have hlenZ : LZ.length = LX.length := hci.basis.len.symm
  have hbi : w.length / LX.length * LX.length = w.length := Nat.div_mul_cancel h1
  have hbo : w.length / m * m = w.length := Nat.div_mul_cancel h2
  have hbi1 : 1 ≤ w.length / LX.length := (Nat.one_le_div_iff hk).2 (Nat.le_of_dvd hwl h1)
  have hlt : ∀ i ∈ w, i < w.length := fun i hi => List.mem_range.1 (hperm.mem_iff.1 hi)
  obtain ⟨N, code', after', e, -, -, hN, ⟨X, Z, hX, hZ, ex, ez, -⟩, -, -, -, fresh, e', -, fx, fz, -⟩ :=
    C80_concatenate inner outer hi ho LX LZ KX KZ hL hK wiring? w hw hperm hne h1 h2
  have hc2 : ∃ c : CssCode F N, code = ⟨N, c⟩ ∧ c.hx = code'.hx ∧ c.hz = code'.hz := by
    cases inherit with
    | true => rw [hcode] at e; cases e; exact ⟨_, rfl, rfl, rfl⟩
    | false => rw [hcode] at e'; cases e'; exact ⟨_, rfl, fx, fz⟩
  obtain ⟨c, rfl, cx, cz⟩ := hc2
  obtain ⟨N', si, ei, hN', hoki, hli, hxi, hzi⟩ := copiesCss_spec inner hi LX LZ hL _ hbi1
  obtain rfl : N' = N := by rw [hN', hN]
  have hcsi : CssComplete si.hx si.hz (bitCopies (w.length / LX.length) LX) (bitCopies (w.length / LX.length) LZ) := by
    obtain ⟨A, B, e, e2, -⟩ := hoki.logicals
    rw [hli] at e; cases e; exact e2
  have eX := indexList_copies (N := N') (num := w.length / LX.length) LX w hk (by rw [hbi]; exact hlt)
  have eZ := indexList_copies (N := N') (num := w.length / LX.length) LZ w (by omega) (by rw [hlenZ, hbi]; exact hlt)
  have hval := cssComplete_wiring hcsi w (by rw [length_bitCopies, hbi]; exact hperm) eX eZ
  rw [← funext hX, ← funext hZ, hxi, hzi] at hval
  have hcl : ∀ j : Fin w.length, w[j] / LX.length < w.length / LX.length := fun j => by
    rw [Nat.div_lt_iff_lt_mul hk, hbi]
    exact hlt _ (List.getElem_mem _)
  have hM : w.length = m * (w.length / m) := by rw [Nat.mul_comm]; exact hbo.symm
  have hinj : ∀ i j : Fin w.length, i.val / m = j.val / m → w[i] / LX.length = w[j] / LX.length → i = j :=
    fun i j h h' => Fin.ext (hspread i j i.isLt j.isLt h h')
  rw [cx, cz, ex, ez]
  constructor
  · intro d1 d2 hd1 hd2 v hv
    exact concat_weight hN hM hval (fun j => w[j] / LX.length) (fun j => LZ.getD (w[j] % LZ.length) 0) hcl
      (fun j => by rw [hZ j, copyBits, hlenZ]) hinj (fun v hv => hd1.2 ⟨v, hv, rfl⟩) (fun v hv => hd2.2 ⟨v, hv, rfl⟩) v hv
  · intro d1 d2 hd1 hd2 v hv
    exact concat_weight hN hM hval.symm (fun j => w[j] / LX.length) (fun j => LX.getD (w[j] % LX.length) 0) hcl
      (fun j => by rw [hX j, copyBits]) hinj (fun v hv => hd1.2 ⟨v, hv, rfl⟩) (fun v hv => hd2.2 ⟨v, hv, rfl⟩) v hv

/-- The default wiring sends the qudits of an outer block to different inner blocks. -/
theorem C80_default_spread (m k : ℕ) (hk : 0 < k) : ∀ (i j : ℕ) (hi : i < (interleavedWiring m k).length)
    (hj : j < (interleavedWiring m k).length), i / m = j / m →
      (interleavedWiring m k)[i] / k = (interleavedWiring m k)[j] / k → i = j := by
  obtain ⟨hperm, hget⟩ := C26_default_wiring m k
  have hlen : (interleavedWiring m k).length = m * k := by simpa using hperm.length_eq
  have hval : ∀ i (hi : i < (interleavedWiring m k).length), (interleavedWiring m k)[i] / k = i % m := by
    intro i hi
    have hi' : i < k * m := by rw [Nat.mul_comm]; omega
    have hm : 0 < m := by
      rcases Nat.eq_zero_or_pos m with rfl | h
      · omega
      · exact h
    have hik : i / m < k := (Nat.div_lt_iff_lt_mul hm).2 hi'
    have := hget (i / m) (i % m) hik (Nat.mod_lt _ hm)
    rw [Nat.mul_comm (i / m), Nat.div_add_mod, List.getElem?_eq_getElem hi, Option.some_inj] at this
    rw [this, Nat.mul_comm, Nat.mul_add_div hk, Nat.div_eq_of_lt hik, Nat.add_zero]
  intro i j hi hj h1 h2
  rw [hval i hi, hval j hj] at h2
  rw [← Nat.div_add_mod i m, ← Nat.div_add_mod j m, h1, h2]

/-- The claim that the inputs are unchanged fails: with one copy of the inner code, the caller's object has
other logical operators afterwards, and the same call gives another code the second time. -/
theorem C80_disagreement : ∃ (inner after after' outer : CssCode (ZMod 2) 2) (code code' : AnyCss (ZMod 2)),
    CssOk inner ∧ CssOk outer ∧
      concatenateCss inner outer (some [1, 0]) true = .ok (code, after) ∧
      after.logicals ≠ inner.logicals ∧
      concatenateCss after outer (some [1, 0]) true = .ok (code', after') ∧
      code.2.hz.map List.ofFn ≠ code'.2.hz.map List.ofFn := by
  have e1 : CssOk (CssCode.ofMatrices (F := ZMod 2) (n := 2) [![0, 0]] [![0, 0]]) :=
    cssOk_ofMatrices _ _ none false (by simp) (by simp)
  have e2 : CssOk (CssCode.ofMatrices (F := ZMod 2) (n := 2) [] [![1, 0]]) :=
    cssOk_ofMatrices _ _ none false (by simp) (by simp)
  have h : (match concatenateCss (CssCode.ofMatrices (F := ZMod 2) (n := 2) [![0, 0]] [![0, 0]])
      (CssCode.ofMatrices (F := ZMod 2) (n := 2) [] [![1, 0]]) (some [1, 0]) true with
    | .error _ => false
    | .ok (c, a) =>
      match concatenateCss a (CssCode.ofMatrices (F := ZMod 2) (n := 2) [] [![1, 0]]) (some [1, 0]) true with
      | .error _ => false
      | .ok (c', _) =>
        decide (a.logicals ≠ (CssCode.ofMatrices (F := ZMod 2) (n := 2) [![0, 0]] [![0, 0]]).logicals) &&
        decide (c.2.hz.map List.ofFn ≠ c'.2.hz.map List.ofFn)) = true := by decide +kernel
  split at h
  · cases h
  · rename_i c a hc
    split at h
    · cases h
    · rename_i c' a' hc'
      rw [Bool.and_eq_true, decide_eq_true_iff, decide_eq_true_iff] at h
      exact ⟨_, a, a', _, c, c', e1, e2, hc, h.1, hc', h.2⟩

/-! ## Examples -/

/-- The [[4, 2, 2]] code. -/
def c422 : CssCode (ZMod 2) 4 := CssCode.ofMatrices [![1, 1, 1, 1]] [![1, 1, 1, 1]]

/-- A good code. -/
theorem c422_ok : CssOk c422 := cssOk_ofMatrices _ _ none false (by simp) (by simp)

/-- A subsystem code of four qubits, one logical qubit and one gauge qubit. -/
def bacon : CssCode (ZMod 2) 4 := CssCode.ofMatrices [![1, 1, 0, 0], ![0, 0, 1, 1]] [![1, 0, 1, 0], ![0, 1, 0, 1]]

/-- A stack of a stabilizer code and a subsystem code. -/
example : ∃ s, stackCss [⟨4, c422⟩, ⟨4, bacon⟩] true = .ok s ∧ s.dimension = 3 ∧ s.isSub = true := by
  obtain ⟨s, h1, -, -, -, -, -, h2, h3⟩ := C80_stack (F := ZMod 2) [⟨4, c422⟩, ⟨4, bacon⟩] (by simp) (by
    intro c hc
    rcases List.mem_cons.1 hc with rfl | hc
    · exact c422_ok
    · rw [List.mem_singleton.1 hc]
      exact cssOk_ofMatrices _ _ none false (by simp) (by simp))
  exact ⟨s, h1, h2.trans (by decide +kernel), h3.trans (by decide +kernel)⟩

/-- The [[4, 2, 2]] code concatenated with itself: 16 qubits, 4 logical qubits. -/
example : ∃ code after, concatenateCss c422 c422 none true = .ok (⟨16, code⟩, after) ∧ code.dimension = 4 ∧
    ∀ v, IsNontrivialX code.hx code.hz v → 4 ≤ hammingNorm v := by
  obtain ⟨LX, LZ, hL, -, -, hdim⟩ := c422_ok.logicals
  have hk : c422.dimension = 2 := by decide +kernel
  have hl : LX.length = 2 := by rw [← hdim, hk]
  have hd : IsXDistance c422.hx c422.hz 2 := by
    have h : ∀ v : Fin 4 → ZMod 2, IsNontrivialX c422.hx c422.hz v → 2 ≤ hammingNorm v := by
      intro v hv
      have h1 : v ∈ kernel c422.hz := by
        have := (isNontrivialX_iff _ _ _).1 hv
        refine (sup_le ?_ le_rfl : rowSpan c422.hx ⊔ kernel c422.hz ≤ kernel c422.hz) this.1
        refine rowSpan_le.2 fun x hx => ?_
        have : x = ![1, 1, 1, 1] := by simpa [c422, CssCode.ofMatrices] using hx
        subst this
        intro z hz
        have : z = ![1, 1, 1, 1] := by simpa [c422, CssCode.ofMatrices] using hz
        subst this
        decide +kernel
      have h2 : v ≠ 0 := by
        rintro rfl
        exact hv.2 ((isCombination_iff _ _).2 (Submodule.zero_mem _))
      have h3 : dot ![1, 1, 1, 1] v = 0 := h1 _ (by simp [c422, CssCode.ofMatrices])
      clear h1 hv
      revert h2 h3
      revert v
      decide +kernel
    refine ⟨⟨![1, 1, 0, 0], ?_, by decide +kernel⟩, ?_⟩
    · rw [isNontrivialX_iff]
      refine ⟨Submodule.mem_sup_right fun z hz => ?_, fun hmem => ?_⟩
      · have : z = ![1, 1, 1, 1] := by simpa [c422, CssCode.ofMatrices] using hz
        subst this
        decide +kernel
      · have := dot_eq_zero_of_mem_rowSpan hmem (x := ![1, 0, 1, 0]) (by
          intro z hz
          have : z = ![1, 1, 1, 1] := by simpa [c422, CssCode.ofMatrices] using hz
          subst this
          decide +kernel)
        revert this
        decide +kernel
    · rintro k ⟨v, hv, rfl⟩
      exact h v hv
  obtain ⟨N, code, after, e, -, -, hN, -, hd', -⟩ := C80_concatenate c422 c422 c422_ok c422_ok LX LZ LX LZ hL hL
    none (interleavedWiring 4 2) (by rw [hl]; rfl) (by decide) (by decide) (by rw [hl]; decide) (by decide)
  rw [hl] at hN
  obtain rfl : N = 16 := hN
  have hb := C80_distance c422 c422 c422_ok c422_ok none (interleavedWiring 4 2) (by rw [hk]; rfl) (by decide)
    (by decide) (by rw [hk]; decide) (by decide) (by rw [hk]; exact C80_default_spread 4 2 (by decide)) true _ _ e
  exact ⟨code, after, e, by rw [hd', hk]; rfl, hb.1 2 2 hd hd⟩

/-! ### Instances of the theorems: concrete cases meet the hypotheses -/

private def fourTwo : CssCode (ZMod 2) 4 := CssCode.ofMatrices [![1, 1, 1, 1]] [![1, 1, 1, 1]] (some false)
private def gaugeFour : CssCode (ZMod 2) 4 := CssCode.ofMatrices [![1, 1, 0, 0], ![0, 0, 1, 1]] [![1, 0, 1, 0], ![0, 1, 0, 1]] none
private theorem fourCodes_ok : ∀ c ∈ ([⟨4, fourTwo⟩, ⟨4, gaugeFour⟩] : List (AnyCss (ZMod 2))), CssOk c.2 := by
  intro c hc
  rcases List.mem_cons.1 hc with rfl | hc
  · exact cssOk_ofMatrices _ _ _ _ (fun _ => by decide +kernel) (by simp)
  · rw [List.mem_singleton.1 hc]
    exact cssOk_ofMatrices _ _ none false (by simp) (by simp)
example := C80_stack_fresh _ (by simp) fourCodes_ok
example : True := by
  obtain ⟨s, h, -⟩ := C80_stack _ (by simp) fourCodes_ok
  have := C80_stack_distance _ _ s h 2
  trivial

end QLDPC.Props

#print axioms QLDPC.Props.C80_stack
#print axioms QLDPC.Props.C80_stack_fresh
#print axioms QLDPC.Props.C80_stack_distance
#print axioms QLDPC.Props.C80_concatenate
#print axioms QLDPC.Props.C80_distance
#print axioms QLDPC.Props.C80_default_spread
#print axioms QLDPC.Props.C80_disagreement
