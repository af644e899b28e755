import Verif.Model.NamedCodes
import Verif.Props.CssDistance
import Verif.Props.QuditDistance
import Verif.Props.Text
import Verif.Spec.Lattice

/-!
# Property C79: named codes have the recorded parameters
-/

namespace QLDPC.Props

open QLDPC QLDPC.Spec

/-- If the operators are accepted, they are stored. -/
theorem setLogicalOpsXZ_eq {n : ℕ} {c : NamedCss (ZMod 2) n} {LX LZ : Rows (ZMod 2) n} {v : Bool}
    (h : (c.setLogicalOpsXZ LX LZ v).isOk = true) : c.setLogicalOpsXZ LX LZ v =
      .ok { code := { c.code with logicals? := some (LX, LZ) }, dim? := some ((LX.length + LZ.length) / 2 : ℕ) } := by
  unfold NamedCss.setLogicalOpsXZ at h ⊢
  simp only at h ⊢
  generalize QCode.setLogicalOps (F := ZMod 2) _ _ _ = e at h ⊢
  cases e with
  | error _ => cases h
  | ok _ => rfl

/-- Everything a named CSS code records is right: it has `k` logical qubits, X- and Z-distance `d`, and its
logical operators, if set, are `k` conjugate pairs that commute with all checks. -/
structure NamedOk {n : ℕ} (c : NamedCss (ZMod 2) n) (k d : ℕ) : Prop where
  stabilizer : c.code.isSub = false
  dim : c.dim? = some (k : ℤ)
  distX : c.code.distX? = some (some d)
  distZ : c.code.distZ? = some (some d)
  params : HasParameters c.code.hx c.code.hz k d d
  logicals : ∀ L, c.code.logicals? = some L → IsCssLogicalBasis c.code.hx c.code.hz L.1 L.2 ∧ L.1.length = k
  ok : CssOk c.code

/-- **C79**: `FiveQubitCode()` is a stabilizer code on five qubits with dimension 1 and distance 3, as
recorded. -/
theorem C79_five_qubit (t : CharTable) (ht : t.Ok) : ∃ c, fiveQubitCode t (primeInts 2) = .ok ⟨5, c⟩ ∧
    StabOk c ∧ codeDim c.matrix = 5 + 1 ∧ IsCodeDistance c.matrix 3 ∧ c.dim? = some 1 ∧
    c.dist? = some (some 3) := by
  obtain ⟨ss, h1, h2⟩ := C18_round_trip ht (primeInts 2) (primeInts_ok 2 (by decide)) 5 fiveQubit (by decide)
  have h3 : getStrings (primeInts 2) fiveQubit = some (fiveQubitStrings.map String.toList) := by
    decide +kernel
  rw [h3] at h1
  obtain rfl := Option.some.inj h1
  have hM : AllCommute fiveQubit := by unfold AllCommute; decide +kernel
  obtain ⟨d, c', e1, e2, -⟩ := C72_exact 64 [1] (by decide) (by decide) (by decide) (by decide)
    (QCode.ofMatrix fiveQubit) (stabOk_ofMatrix _ hM)
  have e3 : ((QCode.ofMatrix fiveQubit).distance 64 [0, 1] none).1 = some (some 3) := by decide +kernel
  rw [e1] at e3
  obtain rfl := Option.some.inj e3
  have hd : codeDim fiveQubit = 5 + 1 := by
    have e := finrank_kernel fiveQubit
    have r : rank fiveQubit = 4 := by decide +kernel
    rw [codeDim_eq]
    omega
  refine ⟨{ QCode.ofMatrix fiveQubit (some false) with dim? := some 1, dist? := some (some 3) },
    by unfold fiveQubitCode; rw [h2]; rfl, ⟨rfl, hM, ?_, ?_, ?_⟩, hd, e2, rfl, rfl⟩
  · intro L h; cases h
  · intro k h; cases h; exact hd
  · intro k h; cases h; exact e2

theorem codeDim_of_rank {n : ℕ} {M : Rows (ZMod 2) n} {r : ℕ} (h : rank M = r) : codeDim M = n - r := by
  have := finrank_kernel M
  rw [codeDim_eq]; omega

/-- A distance found by the exact algorithm. -/
theorem xDistance_of_eval {n : ℕ} (c : CssCode (ZMod 2) n) (hc : CssOk c) (h64 : n < 2 ^ 64) {d : ℕ}
    (hd : (c.distExact 64 [0, 1] (some .X)).1 = some (some d)) : IsXDistance c.hx c.hz d := by
  obtain ⟨d', c', e1, e2, -⟩ := C27_exact [1] (by decide) (by decide) h64 c hc (some .X)
  rw [e1] at hd
  obtain rfl := Option.some.inj hd
  exact e2

/-- Recorded values of a self-dual code are right if its X-distance and logical operators are. -/
theorem namedOk_of {n : ℕ} {c : NamedCss (ZMod 2) n} {k d : ℕ} (hs : c.code.hz = c.code.hx)
    (hsub : c.code.isSub = false) (hdim : c.dim? = some (k : ℤ)) (hX : c.code.distX? = some (some d))
    (hZ : c.code.distZ? = some (some d)) (hnone : c.code.dist? = none)
    (hc : ∀ x ∈ c.code.hx, ∀ z ∈ c.code.hx, ∑ q, x q * z q = 0) (hr : 2 * rank c.code.hx + k = n)
    (hd : IsXDistance c.code.hx c.code.hx d)
    (hL : ∀ L, c.code.logicals? = some L → IsCssLogicalBasis c.code.hx c.code.hx L.1 L.2 ∧ L.1.length = k) :
    NamedOk c k d := by
  have hk : cssDimension c.code.hx c.code.hz c.code.isSub = k := by
    have e : (dropZero (rowReduce c.code.hx)).length = rank c.code.hx := by
      simpa using length_dropZero_rowReduce c.code.hx
    simp only [cssDimension, hs, hsub, e, Bool.false_eq_true, if_false]
    omega
  rw [hs] at hk
  refine ⟨hsub, hdim, hX, hZ, ⟨?_, ?_, ?_, ?_⟩, ?_, ⟨?_, ?_, ?_, ?_, ?_, ?_⟩⟩ <;> rw [hs]
  · exact hc
  · rw [codeDim_of_rank rfl]; omega
  · exact hd
  · exact hd
  · exact hL
  · exact fun _ => hc
  · intro L h
    rw [hk]
    exact hL L h
  · exact fun _ _ => Iff.rfl
  · intro d' h; rw [hX] at h; obtain rfl := Option.some.inj h; exact hd
  · intro d' h; rw [hZ] at h; obtain rfl := Option.some.inj h; exact hd
  · intro d' h; rw [hnone] at h; cases h

theorem cssLogicalBasis_of {n : ℕ} {H LX LZ : Rows (ZMod 2) n} (hl : LX.length = LZ.length)
    (hX : ∀ l ∈ LX, ∀ r ∈ H, ∑ q, r q * l q = 0) (hZ : ∀ l ∈ LZ, ∀ r ∈ H, ∑ q, r q * l q = 0)
    (hp : ∀ (i : Fin LX.length) (j : Fin LZ.length), ∑ q, LX[i] q * LZ[j] q = if i.val = j.val then 1 else 0) :
    IsCssLogicalBasis H H LX LZ :=
  ⟨hl, hX, hZ, fun i j hi hj => hp ⟨i, hi⟩ ⟨j, hj⟩⟩

/-- **C79**: `SteaneCode()` is a `[7, 1, 3]` code. -/
theorem C79_steane : (hammingColumns [(0 : ZMod 2), 1] 3).length = 7 ∧ ∃ c, steaneCode = .ok c ∧ NamedOk c 1 3 ∧
    c.code.hx.map List.ofFn = [[0, 0, 0, 1, 1, 1, 1], [0, 1, 1, 0, 0, 1, 1], [1, 0, 1, 0, 1, 0, 1]] ∧
    c.code.logicals? = some ([fun _ => 1], [fun _ => 1]) := by
  have hc : ∀ x ∈ (hammingCode [(0 : ZMod 2), 1] 3).matrix, ∀ z ∈ (hammingCode [(0 : ZMod 2), 1] 3).matrix,
      ∑ q, x q * z q = 0 := by decide +kernel
  refine ⟨by decide +kernel, { code := {
      hx := (hammingCode [(0 : ZMod 2), 1] 3).matrix, hz := (hammingCode [(0 : ZMod 2), 1] 3).matrix
      isSub := false
      equalXZ := true
      logicals? := some ([fun _ => 1], [fun _ => 1])
      distX? := some (some 3), distZ? := some (some 3) }, dim? := some 1 }, ?_, namedOk_of rfl rfl rfl rfl rfl rfl hc (by decide +kernel) ?_ ?_, ?_, rfl⟩
  · unfold steaneCode
    simp only
    rw [setLogicalOpsXZ_eq rfl]
    rfl
  · exact xDistance_of_eval (CssCode.ofMatrices (hammingCode [(0 : ZMod 2), 1] 3).matrix
      (hammingCode [(0 : ZMod 2), 1] 3).matrix (some false))
      (cssOk_ofMatrices _ _ _ _ (fun _ => hc) (by simp)) (by decide +kernel) (by decide +kernel)
  · intro L h
    obtain rfl := Option.some.inj h
    exact ⟨cssLogicalBasis_of rfl (by decide +kernel) (by decide +kernel) (by decide +kernel), rfl⟩
  · decide +kernel

/-- Checks of the C6 code. -/
def c6Checks : Rows (ZMod 2) 6 := [![1, 1, 0, 0, 1, 1], ![0, 1, 1, 1, 1, 0]]

/-- Logical operators of the C6 code. -/
def c6Ops : Rows (ZMod 2) 6 := [![1, 1, 1, 0, 0, 0], ![0, 0, 0, 1, 1, 1]]

/-- **C79**: `C6Code()` is a `[6, 2, 2]` code; the logical operators given pass validation. -/
theorem C79_c6 : ∃ c, c6Code = .ok c ∧ NamedOk c 2 2 ∧ c.code.hx = c6Checks ∧
    c.code.logicals? = some (c6Ops, c6Ops) := by
  have hc : ∀ x ∈ c6Checks, ∀ z ∈ c6Checks, ∑ q, x q * z q = 0 := by decide +kernel
  refine ⟨{ code := { hx := c6Checks, hz := c6Checks, isSub := false, equalXZ := true
                      logicals? := some (c6Ops, c6Ops)
                      distX? := some (some 2), distZ? := some (some 2) }
            dim? := some 2 }, ?_, namedOk_of rfl rfl rfl rfl rfl rfl hc (by decide +kernel) ?_ ?_, rfl, rfl⟩
  · unfold c6Code
    simp only
    rw [setLogicalOpsXZ_eq (by decide +kernel)]
    have e : blockDiag2 (n := 3) (m := 3) [![1, 1, 1]] [![(1 : ZMod 2), 1, 1]] = c6Ops := by decide +kernel
    rw [e]
    rfl
  · exact xDistance_of_eval (CssCode.ofMatrices c6Checks c6Checks (some false))
      (cssOk_ofMatrices _ _ _ _ (fun _ => hc) (by simp)) (by decide) (by decide +kernel)
  · intro L h
    obtain rfl := Option.some.inj h
    exact ⟨cssLogicalBasis_of rfl (by decide +kernel) (by decide +kernel) (by decide +kernel), rfl⟩

/-- The single check of an iceberg code. -/
def icebergChecks (size : ℕ) : Rows (ZMod 2) (2 * size) := [fun _ => 1]

theorem iceberg_isWord {n : ℕ} (v : Fin n → ZMod 2) :
    IsWord [fun _ => (1 : ZMod 2)] v ↔ ∑ q, v q = 0 := by
  simp [IsWord]

theorem iceberg_combination {n : ℕ} (v : Fin n → ZMod 2) :
    IsCombination [fun _ => (1 : ZMod 2)] v ↔ v = 0 ∨ v = fun _ => 1 := by
  rw [isCombination_iff]
  constructor
  · intro h
    have e : {w : Fin n → ZMod 2 | w ∈ [fun _ => (1 : ZMod 2)]} = {fun _ => 1} := by ext; simp
    rw [rowSpan, e, Submodule.mem_span_singleton] at h
    obtain ⟨a, rfl⟩ := h
    fin_cases a
    · exact Or.inl (zero_smul _ _)
    · exact Or.inr (one_smul _ _)
  · rintro (rfl | rfl)
    · exact Submodule.zero_mem _
    · exact subset_rowSpan (by simp)

theorem iceberg_params (size : ℕ) (hs : 2 ≤ size) :
    IsXDistance (icebergChecks size) (icebergChecks size) 2 := by
  have hc : ∀ x ∈ icebergChecks size, ∀ z ∈ icebergChecks size, ∑ q, x q * z q = 0 := by
    intro x hx z hz
    simp only [icebergChecks, List.mem_singleton] at hx hz
    subst hx hz
    simp only [mul_one, Finset.sum_const, Finset.card_univ, Fintype.card_fin, nsmul_eq_mul, Nat.cast_mul]
    exact mul_eq_zero_of_left (by decide) _
  have key : ∀ v, IsNontrivialX (icebergChecks size) (icebergChecks size) v ↔
      ∑ q, v q = 0 ∧ v ≠ 0 ∧ v ≠ fun _ => 1 := by
    intro v
    rw [C27_stabilizer_definition _ _ hc, icebergChecks, iceberg_isWord, iceberg_combination, not_or]
  let i0 : Fin (2 * size) := ⟨0, by omega⟩
  let i1 : Fin (2 * size) := ⟨1, by omega⟩
  let i2 : Fin (2 * size) := ⟨2, by omega⟩
  have h01 : i0 ≠ i1 := by simp [i0, i1]
  have h02 : i0 ≠ i2 := by simp [i0, i2]
  have h12 : i1 ≠ i2 := by simp [i1, i2]
  refine ⟨⟨Pi.single i0 1 + Pi.single i1 1, (key _).2 ⟨?_, ?_, ?_⟩, ?_⟩, ?_⟩
  · simp only [Pi.add_apply, Finset.sum_add_distrib, Finset.sum_pi_single', Finset.mem_univ, if_true]
    decide
  · intro h
    have := congrFun h i0
    simp [Pi.single_apply, h01] at this
  · intro h
    have := congrFun h i2
    simp [Pi.single_apply, h02.symm, h12.symm] at this
  · have e : Finset.univ.filter (fun i => (Pi.single i0 1 + Pi.single i1 1 : Fin (2 * size) → ZMod 2) i ≠ 0) =
        {i0, i1} := by
      ext i
      simp only [Finset.mem_filter, Finset.mem_univ, true_and, Finset.mem_insert, Finset.mem_singleton,
        Pi.add_apply, Pi.single_apply]
      by_cases a : i = i0
      · subst a; simp [h01]
      · by_cases b : i = i1
        · subst b; simp [h01.symm]
        · simp [a, b]
    unfold hammingNorm
    rw [e, Finset.card_pair h01]
  · rintro k ⟨v, hv, rfl⟩
    obtain ⟨h0, h1, -⟩ := (key v).1 hv
    obtain ⟨a, ha⟩ : ∃ a, v a ≠ 0 := by
      by_contra h; push Not at h; exact h1 (funext h)
    obtain ⟨b, hb, hab⟩ : ∃ b, v b ≠ 0 ∧ b ≠ a := by
      by_contra h
      push Not at h
      rw [Finset.sum_eq_single a (fun b _ hb => by_contra fun h' => hb (h b h')) (by simp)] at h0
      exact ha h0
    unfold hammingNorm
    exact Finset.one_lt_card.2 ⟨a, by simp [ha], b, by simp [hb], hab.symm⟩

theorem rank_iceberg (size : ℕ) (hs : 1 ≤ size) : rank (icebergChecks size) = 1 := by
  have e : {w : Fin (2 * size) → ZMod 2 | w ∈ icebergChecks size} = {fun _ => 1} := by
    ext; simp [icebergChecks]
  rw [← finrank_rowSpan, rowSpan, e]
  refine finrank_span_singleton fun h => ?_
  have := congrFun h ⟨0, by omega⟩
  exact one_ne_zero this

theorem iceberg_commute (size : ℕ) : ∀ x ∈ icebergChecks size, ∀ z ∈ icebergChecks size, ∑ q, x q * z q = 0 := by
  intro x hx z hz
  simp only [icebergChecks, List.mem_singleton] at hx hz
  subst hx hz
  simp only [mul_one, Finset.sum_const, Finset.card_univ, Fintype.card_fin, nsmul_eq_mul, Nat.cast_mul]
  exact mul_eq_zero_of_left (by decide) _

/-- Logical X operators of the `[6, 4, 2]` code with `alternative_logicals=True`: two qubits live on the
first three, the others on the last three physical qubits. -/
def hypercubeX : Rows (ZMod 2) 6 :=
  [![1, 1, 0, 0, 0, 0], ![0, 1, 1, 0, 0, 0], ![0, 0, 0, 1, 1, 0], ![0, 0, 0, 0, 1, 1]]

/-- Logical Z operators of the `[6, 4, 2]` code with `alternative_logicals=True`. -/
def hypercubeZ : Rows (ZMod 2) 6 :=
  [![0, 1, 1, 0, 0, 0], ![1, 1, 0, 0, 0, 0], ![0, 0, 0, 0, 1, 1], ![0, 0, 0, 1, 1, 0]]

/-- **C79**: `IcebergCode(3, alternative_logicals=True)` is a `[6, 4, 2]` code; each of its four logical qubits
is supported on the first or on the last three physical qubits. -/
theorem C79_alternative : ∃ c, icebergCode 3 true = .ok c ∧ NamedOk c 4 2 ∧ c.code.hx = [fun _ => 1] ∧
    c.code.logicals? = some (hypercubeX, hypercubeZ) := by
  refine ⟨{ code := { hx := icebergChecks 3, hz := icebergChecks 3, isSub := false, equalXZ := true
                      logicals? := some (hypercubeX, hypercubeZ)
                      distX? := some (some 2), distZ? := some (some 2) }
            dim? := some 4 }, ?_, namedOk_of rfl rfl rfl rfl rfl rfl (iceberg_commute 3)
      (by rw [rank_iceberg 3 (by decide)]) (iceberg_params 3 (by decide)) ?_, rfl, rfl⟩
  · unfold icebergCode
    simp only
    rw [dif_pos (by simp), setLogicalOpsXZ_eq (by decide +kernel)]
    have e1 : (blockDiag2 (n := 3) (m := 3) [![1, 1, 0], ![0, 1, 1]] [![(1 : ZMod 2), 1, 0], ![0, 1, 1]]).map
        (fun (r : Fin (3 + 3) → ZMod 2) (i : Fin (2 * 3)) => r (i.cast (by omega))) = hypercubeX := by
      decide +kernel
    have e2 : (blockDiag2 (n := 3) (m := 3) [![(1 : ZMod 2), 1, 0], ![0, 1, 1]].reverse
          [![(1 : ZMod 2), 1, 0], ![0, 1, 1]].reverse).map
        (fun (r : Fin (3 + 3) → ZMod 2) (i : Fin (2 * 3)) => r (i.cast (by omega))) = hypercubeZ := by
      decide +kernel
    rw [e1, e2]
    rfl
  · intro L h
    obtain rfl := Option.some.inj h
    exact ⟨cssLogicalBasis_of rfl (by decide +kernel) (by decide +kernel) (by decide +kernel), rfl⟩

/-- **C79**: `IcebergCode(size)` is a `[2 size, 2 size - 2, 2]` code for every `size ≥ 2`. -/
theorem C79_iceberg (size : ℕ) (hs : 2 ≤ size) (alternative : Bool) : ∃ c, icebergCode size alternative = .ok c ∧
    NamedOk c (2 * size - 2) 2 ∧ c.code.hx = [fun _ => 1] ∧
    (c.code.logicals? = none ↔ ¬ (alternative = true ∧ size = 3)) := by
  have hk : (2 * size - 2 : ℤ) = ((2 * size - 2 : ℕ) : ℤ) := by omega
  by_cases h : alternative = true ∧ size = 3
  · obtain ⟨rfl, rfl⟩ := h
    obtain ⟨c, h1, h2, h3, h4⟩ := C79_alternative
    exact ⟨c, h1, h2, h3, by simp [h4]⟩
  · refine ⟨{ code := { hx := icebergChecks size, hz := icebergChecks size, isSub := false, equalXZ := true
                        distX? := some (some 2), distZ? := some (some 2) }
              dim? := some (2 * size - 2) }, ?_, namedOk_of rfl rfl (congrArg some hk) rfl rfl rfl (iceberg_commute size)
        (by rw [rank_iceberg size (by omega)]; omega) (iceberg_params size hs) ?_, rfl, by simp [h]⟩
    · unfold icebergCode
      simp only
      rw [dif_neg h]
      simp [CssCode.ofMatrices, icebergChecks]
    · intro L h
      cases h

/-- **C79**: `IcebergCode(1)` encodes nothing, and `get_distance_if_known` accordingly reports no distance. -/
theorem C79_iceberg_one (alternative : Bool) : ∃ c, icebergCode 1 alternative = .ok c ∧ c.dim? = some 0 ∧
    codeDim c.code.hx + codeDim c.code.hz = 2 + 0 ∧
    c.distIfKnown .X = some none ∧ c.distIfKnown .Z = some none ∧
    (∀ v, ¬ IsNontrivialX c.code.hx c.code.hz v) ∧ ∀ v, ¬ IsNontrivialX c.code.hz c.code.hx v := by
  have key : ∀ v, ¬ IsNontrivialX (icebergChecks 1) (icebergChecks 1) v := by
    intro v hv
    rw [C27_stabilizer_definition _ _ (iceberg_commute 1), icebergChecks, iceberg_isWord, iceberg_combination,
      not_or] at hv
    revert v
    decide +kernel
  refine ⟨{ code := { hx := icebergChecks 1, hz := icebergChecks 1, isSub := false, equalXZ := true
                      distX? := some (some 2), distZ? := some (some 2) }
            dim? := some 0 }, ?_, rfl, ?_, rfl, rfl, key, key⟩
  · unfold icebergCode
    simp only
    rw [dif_neg (by simp)]
    simp [CssCode.ofMatrices, icebergChecks]
  · simp only
    rw [codeDim_of_rank (rank_iceberg 1 (by decide))]

/-- **C79**: `C4Code()` is a `[4, 2, 2]` code. -/
theorem C79_c4 : ∃ c, c4Code = .ok c ∧ NamedOk c 2 2 ∧ c.code.hx = [fun _ => 1] := by
  obtain ⟨c, h1, h2, h3, -⟩ := C79_iceberg 2 (by decide) false
  exact ⟨c, h1, h2, h3⟩

example : asciiTable.Ok := asciiTable_ok

#print axioms C79_five_qubit
#print axioms C79_steane
#print axioms C79_c6
#print axioms C79_iceberg
#print axioms C79_alternative
#print axioms C79_iceberg_one
#print axioms C79_c4

/-! ### Instances of the theorems: concrete cases meet the hypotheses -/

example := C79_five_qubit asciiTable asciiTable_ok
example := C79_iceberg 3 (by decide) true

end QLDPC.Props
