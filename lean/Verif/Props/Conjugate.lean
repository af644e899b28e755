import Verif.Model.Conjugate
import Verif.Props.Surface
import Verif.Props.Product
import Verif.Props.Qudit

/-!
# C98: conjugated codes with the default choice of qudits
-/

namespace QLDPC.Props

open QLDPC QLDPC.Spec

variable {F : Type} [Field F] [DecidableEq F] {n m : ℕ}

theorem sweight_conjugateRow (qs : List (Fin n)) (p : Fin (n + n) → F) :
    sweight (conjugateRow qs p) = sweight p := by
  unfold sweight conjugateRow
  congr 1
  ext i
  simp only [Finset.mem_filter, Finset.mem_univ, true_and, xPart_append, zPart_append]
  split_ifs
  · exact or_comm
  · rfl

theorem conjugateRow_conjugateRow (qs : List (Fin n)) (p : Fin (n + n) → F) :
    conjugateRow qs (conjugateRow qs p) = p := (conjugateLin F qs).left_inv p

theorem nontrivial_conjugateRow [CharP F 2] (qs : List (Fin n)) (M : Rows F (n + n)) (p : Fin (n + n) → F) :
    IsNontrivialLogical (M.map (conjugateRow qs)) (conjugateRow qs p) ↔ IsNontrivialLogical M p := by
  unfold IsNontrivialLogical
  refine and_congr ?_ (by rw [isCombination_iff, isCombination_iff, rowSpan_conjugateRow])
  constructor
  · intro h s hs hr
    have := h (conjugateRow qs s) (by rw [isCombination_iff, rowSpan_conjugateRow, ← isCombination_iff]; exact hs)
      (by
        intro r hr'
        obtain ⟨r', h', rfl⟩ := List.mem_map.1 hr'
        rw [sform_conjugateRow_two]; exact hr r' h')
    rwa [sform_conjugateRow_two] at this
  · intro h s hs hr
    rw [← conjugateRow_conjugateRow qs s] at hs ⊢
    rw [isCombination_iff, rowSpan_conjugateRow, ← isCombination_iff] at hs
    rw [sform_conjugateRow_two]
    refine h _ hs fun r hr' => ?_
    have := hr _ (List.mem_map.2 ⟨r, hr', rfl⟩)
    rw [← conjugateRow_conjugateRow qs s, sform_conjugateRow_two] at this
    exact this

/-- **C98**: over fields of characteristic two, conjugating any qudits of any code preserves the commutation of checks,
the number of independent checks, and the distance; over any field, it preserves the weight of every operator. -/
theorem C98_parameters (qs : List (Fin n)) (M : Rows F (n + n)) :
    (∀ p : Fin (n + n) → F, sweight (conjugateRow qs p) = sweight p) ∧
      codeDim (M.map (conjugateRow qs)) = codeDim M ∧
      (CharP F 2 → (AllCommute (M.map (conjugateRow qs)) ↔ AllCommute M) ∧
        ∀ d, IsCodeDistance (M.map (conjugateRow qs)) d ↔ IsCodeDistance M d) := by
  refine ⟨sweight_conjugateRow qs, ?_, fun _ => ⟨?_, fun d => ?_⟩⟩
  · have h1 := codeDim_add_rank M
    have h2 := codeDim_add_rank (M.map (conjugateRow qs))
    rw [rank_conjugateRow] at h2
    omega
  · unfold AllCommute
    simp only [List.forall_mem_map, sform_conjugateRow_two]
  · unfold IsCodeDistance
    have e : {k | ∃ p, IsNontrivialLogical (M.map (conjugateRow qs)) p ∧ k = sweight p} =
        {k | ∃ p, IsNontrivialLogical M p ∧ k = sweight p} := by
      ext k
      constructor
      · rintro ⟨p, hp, rfl⟩
        refine ⟨conjugateRow qs p, ?_, (sweight_conjugateRow qs p).symm⟩
        rwa [← nontrivial_conjugateRow qs, conjugateRow_conjugateRow]
      · rintro ⟨p, hp, rfl⟩
        exact ⟨conjugateRow qs p, (nontrivial_conjugateRow qs M p).2 hp, (sweight_conjugateRow qs p).symm⟩
    rw [e]

theorem sform_conjugate_css (qs : List (Fin n)) (x z : Fin n → F) :
    sform (conjugateRow qs (Fin.append x 0)) (conjugateRow qs (Fin.append 0 z)) =
      ∑ i, if i ∈ qs then - (x i * z i) else x i * z i := by
  unfold sform conjugateRow
  refine Finset.sum_congr rfl fun i _ => ?_
  simp only [xPart_append, zPart_append]
  split_ifs <;> simp

theorem sform_conjugate_xx (qs : List (Fin n)) (x y : Fin n → F) :
    sform (conjugateRow qs (Fin.append x 0)) (conjugateRow qs (Fin.append y 0)) = 0 := by
  unfold sform conjugateRow
  refine Finset.sum_eq_zero fun i _ => ?_
  simp only [xPart_append, zPart_append]
  split_ifs <;> simp

theorem sform_conjugate_zz (qs : List (Fin n)) (x y : Fin n → F) :
    sform (conjugateRow qs (Fin.append 0 x)) (conjugateRow qs (Fin.append 0 y)) = 0 := by
  unfold sform conjugateRow
  refine Finset.sum_eq_zero fun i _ => ?_
  simp only [xPart_append, zPart_append]
  split_ifs <;> simp

theorem sform_neg_comm (p q : Fin (n + n) → F) : sform p q = - sform q p := by
  unfold sform
  rw [← Finset.sum_neg_distrib]
  exact Finset.sum_congr rfl fun i _ => by ring

theorem mem_blockDiag2_rows {A B : Rows F n} {r : Fin (n + n) → F} :
    r ∈ blockDiag2 A B ↔ (∃ a ∈ A, r = Fin.append a 0) ∨ ∃ b ∈ B, r = Fin.append 0 b := by
  unfold blockDiag2
  simp only [List.mem_append, List.mem_map, eq_comm]

/-- **C98**, any field and any qudits of any CSS code: the conjugated checks commute exactly if every X-type check and
every Z-type check have the same product on the conjugated qudits as on the others. -/
theorem C98_commute (hx hz : Rows F n) (qs : List (Fin n)) :
    AllCommute ((blockDiag2 hx hz).map (conjugateRow qs)) ↔
      ∀ x ∈ hx, ∀ z ∈ hz, (∑ i, if i ∈ qs then 0 else x i * z i) = ∑ i, if i ∈ qs then x i * z i else 0 := by
  have key : ∀ x z : Fin n → F, sform (conjugateRow qs (Fin.append x 0)) (conjugateRow qs (Fin.append 0 z)) = 0 ↔
      (∑ i, if i ∈ qs then 0 else x i * z i) = ∑ i, if i ∈ qs then x i * z i else 0 := by
    intro x z
    rw [sform_conjugate_css, ← sub_eq_zero (a := ∑ i, if i ∈ qs then 0 else x i * z i), ← Finset.sum_sub_distrib]
    have : ∀ i, (if i ∈ qs then - (x i * z i) else x i * z i) =
        (if i ∈ qs then 0 else x i * z i) - if i ∈ qs then x i * z i else 0 := by
      intro i; split_ifs <;> simp
    rw [Finset.sum_congr rfl fun i _ => this i]
  constructor
  · intro h x hx' z hz'
    rw [← key]
    exact h _ (List.mem_map.2 ⟨_, mem_blockDiag2_rows.2 (.inl ⟨x, hx', rfl⟩), rfl⟩)
      _ (List.mem_map.2 ⟨_, mem_blockDiag2_rows.2 (.inr ⟨z, hz', rfl⟩), rfl⟩)
  · intro h p hp q hq
    obtain ⟨p', hp', rfl⟩ := List.mem_map.1 hp
    obtain ⟨q', hq', rfl⟩ := List.mem_map.1 hq
    rcases mem_blockDiag2_rows.1 hp' with ⟨x, hx', rfl⟩ | ⟨z, hz', rfl⟩ <;>
      rcases mem_blockDiag2_rows.1 hq' with ⟨x', hx'', rfl⟩ | ⟨z', hz'', rfl⟩
    · exact sform_conjugate_xx qs x x'
    · exact (key x z').2 (h x hx' z' hz'')
    · rw [sform_neg_comm, (key x' z).2 (h x' hx'' z hz'), neg_zero]
    · exact sform_conjugate_zz qs z z'

theorem mem_checkerboard {rows cols : ℕ} (k : Fin (rows * cols)) :
    k ∈ checkerboard rows cols ↔ (k.val / cols + k.val % cols) % 2 = 1 := by
  simp [checkerboard, Fin.coe_divNat, Fin.coe_modNat]

theorem stabDimension_css {hx hz : Rows F n} {k : ℕ} (h : codeDim hx + codeDim hz = n + k) :
    stabDimension (blockDiag2 hx hz) = k := by
  unfold stabDimension
  rw [dropZero_rowReduce, List.length_map]
  change n - rank (blockDiag2 hx hz) = k
  have h1 := codeDim_add_rank hx
  have h2 := codeDim_add_rank hz
  have h3 := finrank_blockDiag2 hx hz
  have h4 := finrank_kernel hx
  have h5 := finrank_kernel hz
  have h6 := finrank_kernel (blockDiag2 hx hz)
  omega

theorem ofMatrices_commute {hx hz : Rows F n} (h : ∀ x ∈ hx, ∀ z ∈ hz, ∑ q, x q * z q = 0) (promise : Bool) :
    (CssCode.ofMatrices hx hz none promise).isSub = false := by
  show (hx.any fun x => hz.any fun z => decide (dot x z ≠ 0)) = false
  rw [Bool.eq_false_iff, ne_eq, List.any_eq_true]
  rintro ⟨x, hx', h'⟩
  obtain ⟨z, hz', h'⟩ := List.any_eq_true.1 h'
  exact (of_decide_eq_true h') (h x hx' z hz')

theorem css_conjugated_parameters [CharP F 2] {hx hz : Rows F n} {k dx dz : ℕ} (h : HasParameters hx hz k dx dz)
    (promise : Bool) (qs : List (Fin n)) :
    ∃ c, (CssCode.ofMatrices hx hz none promise).conjugated (some qs) none = .ok c ∧ c.isSub = false ∧
      c.matrix = (blockDiag2 hx hz).map (conjugateRow qs) ∧ AllCommute c.matrix ∧ c.dimension = k ∧
      IsCodeDistance c.matrix (min dx dz) := by
  obtain ⟨-, -, h2⟩ := C98_parameters qs (blockDiag2 hx hz)
  obtain ⟨h3, h4⟩ := h2 inferInstance
  refine ⟨{ matrix := (blockDiag2 hx hz).map (conjugateRow qs),
            isSub := (CssCode.ofMatrices hx hz none promise).isSub }, rfl, ofMatrices_commute h.commute promise, rfl,
    ?_, ?_, ?_⟩
  · rw [h3]
    have := (C98_commute hx hz []).2 (by
      intro x hx' z hz'
      simp only [List.not_mem_nil, if_false, Finset.sum_const_zero]
      exact h.commute x hx' z hz')
    have e : (blockDiag2 hx hz).map (conjugateRow ([] : List (Fin n))) = blockDiag2 hx hz := by
      rw [List.map_congr_left (g := id), List.map_id]
      intro r _
      unfold conjugateRow
      simp only [List.not_mem_nil, if_false]
      exact append_parts r
    rwa [e] at this
  · have := dimension_conjugateRow qs (blockDiag2 hx hz) false
    rw [ofMatrices_commute h.commute promise]
    show stabDimension ((blockDiag2 hx hz).map (conjugateRow qs)) = k
    rw [← stabDimension_css h.dimension]
    exact this
  · exact (h4 _).2 (codeDistance_css h.distance_x h.distance_z)

/-- The shape of the checks of a CSS code conjugated on every other cell of a lattice: one of X and Z on all even
cells, the other on all odd cells. -/
theorem checkerboard_shape {rows cols : ℕ} {hx hz : Rows F (rows * cols)} {r : Fin (rows * cols + rows * cols) → F}
    (hr : r ∈ (blockDiag2 hx hz).map (conjugateRow (checkerboard rows cols))) :
    ∃ b : ℕ, ∀ k : Fin (rows * cols), ((k.val / cols + k.val % cols) % 2 = b → zPart r k = 0) ∧
      ((k.val / cols + k.val % cols) % 2 ≠ b → xPart r k = 0) := by
  obtain ⟨r', hr', rfl⟩ := List.mem_map.1 hr
  rcases mem_blockDiag2_rows.1 hr' with ⟨x, -, rfl⟩ | ⟨z, -, rfl⟩
  · refine ⟨0, fun k => ⟨fun h => ?_, fun h => ?_⟩⟩ <;> unfold conjugateRow <;>
      simp only [xPart_append, zPart_append, mem_checkerboard]
    · rw [if_neg (by omega)]; rfl
    · rw [if_pos (by omega)]; rfl
  · refine ⟨1, fun k => ⟨fun h => ?_, fun h => ?_⟩⟩ <;> unfold conjugateRow <;>
      simp only [xPart_append, zPart_append, mem_checkerboard]
    · rw [if_pos (by omega)]; rfl
    · rw [if_neg (by omega)]; rfl

theorem sweight_blockDiag2 {hx hz : Rows F n} {P : ℕ → Prop} (h : ∀ r ∈ hx ++ hz, P (hammingNorm r))
    (qs : List (Fin n)) : ∀ r ∈ (blockDiag2 hx hz).map (conjugateRow qs), P (sweight r) := by
  intro r hr
  obtain ⟨r', hr', rfl⟩ := List.mem_map.1 hr
  rw [sweight_conjugateRow]
  rcases mem_blockDiag2_rows.1 hr' with ⟨x, hx', rfl⟩ | ⟨z, hz', rfl⟩
  · rw [sweight_append_left]; exact h x (List.mem_append_left _ hx')
  · rw [sweight_append_right]; exact h z (List.mem_append_right _ hz')

/-- **C98**: over every finite field of characteristic two, `SurfaceCode(rows, cols).conjugated()` is a stabilizer code
with one logical qudit and distance `min(rows, cols)`; every check touches 2 or 4 qudits, with powers of X on the even
and powers of Z on the odd cells of the lattice, or the other way around (the "XZZX" surface code). -/
theorem C98_surface [Fintype F] [CharP F 2] (rows cols : ℕ) (hr : 2 ≤ rows) (hc : 2 ≤ cols) :
    ∃ code c, surfaceCode F rows cols = some code ∧
      (CssCode.ofMatrices code.hx code.hz none (decide (rows = cols))).conjugated
        (some (checkerboard rows cols)) none = .ok c ∧
      c.isSub = false ∧ AllCommute c.matrix ∧ c.dimension = 1 ∧ IsCodeDistance c.matrix (min rows cols) ∧
      c.matrix.length = code.hx.length + code.hz.length ∧
      ∀ r ∈ c.matrix, (sweight r = 2 ∨ sweight r = 4) ∧
        ∃ b : ℕ, ∀ k : Fin (rows * cols), ((k.val / cols + k.val % cols) % 2 = b → zPart r k = 0) ∧
          ((k.val / cols + k.val % cols) % 2 ≠ b → xPart r k = 0) := by
  obtain ⟨code, h, hp, h1, h2, h3, h4, -⟩ := C54_surface (F := F) rows cols hr hc
  obtain ⟨c, g1, g2, g3, g4, g5, g6⟩ := css_conjugated_parameters hp (decide (rows = cols)) (checkerboard rows cols)
  refine ⟨code, c, h, g1, g2, g4, g5.trans h1, ?_, ?_, ?_⟩
  · rw [h2, h3, min_comm] at g6; exact g6
  · rw [g3]; simp [blockDiag2]
  · intro r hr'
    rw [g3] at hr'
    exact ⟨sweight_blockDiag2 (P := fun k => k = 2 ∨ k = 4) h4 _ r hr', checkerboard_shape hr'⟩

/-- **C98**: over every finite field of characteristic two, `ToricCode(rows, cols).conjugated()` is a stabilizer code
with two logical qudits and distance `min(rows, cols)`, and its checks have the same shape. -/
theorem C98_toric [Fintype F] [CharP F 2] (rows cols : ℕ) (hr0 : 0 < rows) (hc0 : 0 < cols) (hr : rows % 2 = 0)
    (hc : cols % 2 = 0) :
    ∃ code c, toricCode F rows cols = some code ∧
      (CssCode.ofMatrices code.hx code.hz none (decide (rows = cols))).conjugated
        (some (checkerboard rows cols)) none = .ok c ∧
      c.isSub = false ∧ AllCommute c.matrix ∧ c.dimension = 2 ∧ IsCodeDistance c.matrix (min rows cols) ∧
      c.matrix.length = code.hx.length + code.hz.length ∧
      ∀ r ∈ c.matrix, sweight r = 4 ∧
        ∃ b : ℕ, ∀ k : Fin (rows * cols), ((k.val / cols + k.val % cols) % 2 = b → zPart r k = 0) ∧
          ((k.val / cols + k.val % cols) % 2 ≠ b → xPart r k = 0) := by
  obtain ⟨code, h, hp, h1, h2, h3, h4, -⟩ := C54_toric (F := F) rows cols hr0 hc0 hr hc
  obtain ⟨c, g1, g2, g3, g4, g5, g6⟩ := css_conjugated_parameters hp (decide (rows = cols)) (checkerboard rows cols)
  refine ⟨code, c, h, g1, g2, g4, g5.trans h1, ?_, ?_, ?_⟩
  · rw [h2, h3, min_self] at g6; exact g6
  · rw [g3]; simp [blockDiag2]
  · intro r hr'
    rw [g3] at hr'
    exact ⟨sweight_blockDiag2 (P := fun k => k = 4) h4 _ r hr', checkerboard_shape hr'⟩

theorem checkerboard_flat {rows cols : ℕ} (a b : Fin rows × Fin cols → F) :
    (∑ i, if i ∈ checkerboard rows cols then - (flatG a i * flatG (signed b) i) else flatG a i * flatG (signed b) i) =
      gdot a b := by
  rw [sum_flatG]
  unfold gdot
  refine Finset.sum_congr rfl fun p _ => ?_
  rw [flatG_flat, flatG_flat]
  have hp : flat p.1 p.2 ∈ checkerboard rows cols ↔ ¬ ((p.1.val : ℤ) + p.2.val) % 2 = 0 := by
    simp only [checkerboard, List.mem_filter, List.mem_finRange, true_and, decide_eq_true_eq, divNat_flat, modNat_flat]
    omega
  unfold signed sgn
  by_cases h : ((p.1.val : ℤ) + p.2.val) % 2 = 0
  · rw [if_neg fun h' => hp.1 h' h, if_pos h, one_mul]
  · rw [if_pos (hp.2 h), if_neg h]; ring

theorem gdot_indicator {R C : ℕ} (p q : Fin R × Fin C → Prop) [DecidablePred p] [DecidablePred q] :
    gdot (fun k => if p k then (1 : F) else 0) (fun k => if q k then 1 else 0) =
      ((Finset.univ.filter fun k => p k ∧ q k).card : F) := by
  unfold gdot
  rw [← Finset.sum_boole]
  refine Finset.sum_congr rfl fun k _ => ?_
  by_cases h1 : p k <;> by_cases h2 : q k <;> simp [h1, h2]

/-- **C98** fails over every finite field of odd order, for all side lengths: the checks of
`SurfaceCode(rows, cols, field).conjugated()` do not all commute, and yet the code reports to be a stabilizer code. -/
theorem C98_surface_disagreement [Fintype F] (h2 : (2 : F) ≠ 0) (rows cols : ℕ) (hr : 2 ≤ rows) (hc : 2 ≤ cols) :
    ∃ code c, surfaceCode F rows cols = some code ∧
      (CssCode.ofMatrices code.hx code.hz none (decide (rows = cols))).conjugated
        (some (checkerboard rows cols)) none = .ok c ∧
      c.isSub = false ∧ ¬ AllCommute c.matrix := by
  obtain ⟨code, h, hp, -⟩ := C54_surface (F := F) rows cols hr hc
  refine ⟨code, { matrix := (blockDiag2 code.hx code.hz).map (conjugateRow (checkerboard rows cols)), isSub := (CssCode.ofMatrices code.hx code.hz none (decide (rows = cols))).isSub }, h, rfl,
    ofMatrices_commute hp.commute (decide (rows = cols)), fun hall => ?_⟩
  have hne : ¬ ((surfaceChecks rows cols).1 = [] ∨ (surfaceChecks rows cols).2 = []) := by
    intro hcon
    unfold surfaceCode at h
    simp only at h
    rw [if_pos hcon] at h; cases h
  have hcode : code.hx = (surfaceChecks rows cols).1.map (viewField F) ∧
      code.hz = (surfaceChecks rows cols).2.map fun v => conjugateZ rows cols (viewField F v) := by
    unfold surfaceCode at h
    simp only at h
    rw [if_neg hne, Option.some.injEq] at h
    subst h; exact ⟨rfl, rfl⟩
  have mx := (surface_mem_x (F := F) (R := rows) (C := cols) (by omega) (flatG (tile F rows cols 0 0))).2
    ⟨0, 0, ⟨by omega, by omega, by omega, by omega, by omega⟩, rfl⟩
  have mz := (surface_mem_z (F := F) (R := rows) (C := cols) (by omega) (flatG (signed (tile F rows cols (-1) 0)))).2
    ⟨-1, 0, ⟨by omega, by omega, by omega, by omega, by omega⟩, rfl⟩
  rw [← hcode.1] at mx
  rw [← hcode.2] at mz
  have := hall _ (List.mem_map.2 ⟨_, mem_blockDiag2_rows.2 (.inl ⟨_, mx, rfl⟩), rfl⟩)
    _ (List.mem_map.2 ⟨_, mem_blockDiag2_rows.2 (.inr ⟨_, mz, rfl⟩), rfl⟩)
  rw [sform_conjugate_css, checkerboard_flat] at this
  unfold tile at this
  rw [gdot_indicator] at this
  have hcard : (Finset.univ.filter fun k : Fin rows × Fin cols =>
      (((k.1 : ℤ) = 0 ∨ (k.1 : ℤ) = 0 + 1) ∧ ((k.2 : ℤ) = 0 ∨ (k.2 : ℤ) = 0 + 1)) ∧
        ((k.1 : ℤ) = -1 ∨ (k.1 : ℤ) = -1 + 1) ∧ ((k.2 : ℤ) = 0 ∨ (k.2 : ℤ) = 0 + 1)) =
      {((⟨0, by omega⟩ : Fin rows), (⟨0, by omega⟩ : Fin cols)), (⟨0, by omega⟩, ⟨1, by omega⟩)} := by
    ext k
    simp only [Finset.mem_filter, Finset.mem_univ, true_and, Finset.mem_insert, Finset.mem_singleton, Prod.ext_iff,
      Fin.ext_iff]
    omega
  rw [hcard, Finset.card_pair (by simp)] at this
  exact h2 (by exact_mod_cast this)

/-- **C98** fails over every finite field of odd order for all rotated toric codes, too. -/
theorem C98_toric_disagreement [Fintype F] (h2 : (2 : F) ≠ 0) (rows cols : ℕ) (hr0 : 0 < rows) (hc0 : 0 < cols)
    (hr : rows % 2 = 0) (hc : cols % 2 = 0) :
    ∃ code c, toricCode F rows cols = some code ∧
      (CssCode.ofMatrices code.hx code.hz none (decide (rows = cols))).conjugated
        (some (checkerboard rows cols)) none = .ok c ∧
      c.isSub = false ∧ ¬ AllCommute c.matrix := by
  obtain ⟨code, h, hp, -⟩ := C54_toric (F := F) rows cols hr0 hc0 hr hc
  refine ⟨code, { matrix := (blockDiag2 code.hx code.hz).map (conjugateRow (checkerboard rows cols)), isSub := (CssCode.ofMatrices code.hx code.hz none (decide (rows = cols))).isSub }, h, rfl,
    ofMatrices_commute hp.commute (decide (rows = cols)), fun hall => ?_⟩
  have hpar : ¬ (rows % 2 ≠ 0 ∨ cols % 2 ≠ 0) := by omega
  have hmem := toric_mem (F := F) hr hc (rows = 2 ∧ cols = 2) Iff.rfl
  have hne : ¬ ((toricChecks rows cols).1 = [] ∨ (toricChecks rows cols).2 = []) := by
    intro hcon
    unfold toricCode at h
    rw [if_neg hpar] at h
    simp only at h
    rw [if_pos hcon] at h; cases h
  have hcode : code.hx = (if rows = 2 ∧ cols = 2 then ((toricChecks rows cols).1.map (viewField F)).dropLast
        else (toricChecks rows cols).1.map (viewField F)) ∧
      code.hz = (if rows = 2 ∧ cols = 2 then
          ((toricChecks rows cols).2.map fun v => conjugateZ rows cols (viewField F v)).dropLast
        else (toricChecks rows cols).2.map fun v => conjugateZ rows cols (viewField F v)) := by
    unfold toricCode at h
    rw [if_neg hpar] at h
    simp only at h
    rw [if_neg hne, Option.some.injEq] at h
    subst h; exact ⟨rfl, rfl⟩
  have mx := (hmem.1 (flatG (ttile F (⟨0, hr0⟩, ⟨0, hc0⟩)))).2 ⟨_, rfl, rfl⟩
  have mz := (hmem.2 (flatG (signed (ttile F (⟨0, hr0⟩, ⟨1, by omega⟩))))).2 ⟨(⟨0, hr0⟩, ⟨1, by omega⟩), rfl, rfl⟩
  rw [← hcode.1] at mx
  rw [← hcode.2] at mz
  have := hall _ (List.mem_map.2 ⟨_, mem_blockDiag2_rows.2 (.inl ⟨_, mx, rfl⟩), rfl⟩)
    _ (List.mem_map.2 ⟨_, mem_blockDiag2_rows.2 (.inr ⟨_, mz, rfl⟩), rfl⟩)
  rw [sform_conjugate_css, checkerboard_flat] at this
  unfold ttile at this
  rw [gdot_indicator] at this
  have hn : ∀ {N : ℕ} (h : 0 < N), N % 2 = 0 → (next (⟨0, h⟩ : Fin N)).val = 1 := by
    intro N h h'
    rcases next_val (⟨0, h⟩ : Fin N) with ⟨h1, -⟩ | ⟨-, h1⟩
    · simp only at h1; omega
    · exact h1
  have e1 := hn hr0 hr
  have e2 := hn hc0 hc
  have hc2 : 1 < cols := by omega
  have e3 := next_val (⟨1, hc2⟩ : Fin cols)
  simp only at e3
  by_cases hcols : cols = 2
  · have hcard : (Finset.univ.filter fun k : Fin rows × Fin cols =>
        ((k.1 = ⟨0, hr0⟩ ∨ k.1 = next ⟨0, hr0⟩) ∧ (k.2 = ⟨0, hc0⟩ ∨ k.2 = next ⟨0, hc0⟩)) ∧
          (k.1 = ⟨0, hr0⟩ ∨ k.1 = next ⟨0, hr0⟩) ∧ (k.2 = ⟨1, hc2⟩ ∨ k.2 = next ⟨1, hc2⟩)) =
        ({⟨0, hr0⟩, ⟨1, by omega⟩} : Finset (Fin rows)) ×ˢ ({⟨0, hc0⟩, ⟨1, hc2⟩} : Finset (Fin cols)) := by
      ext k
      simp only [Finset.mem_filter, Finset.mem_univ, true_and, Finset.mem_insert, Finset.mem_singleton,
        Finset.mem_product, Fin.ext_iff, e1, e2]
      omega
    rw [hcard, Finset.card_product, Finset.card_pair (by simp), Finset.card_pair (by simp)] at this
    have h4 : (2 : F) * 2 = 0 := by exact_mod_cast this
    exact (mul_ne_zero h2 h2) h4
  · have hcard : (Finset.univ.filter fun k : Fin rows × Fin cols =>
        ((k.1 = ⟨0, hr0⟩ ∨ k.1 = next ⟨0, hr0⟩) ∧ (k.2 = ⟨0, hc0⟩ ∨ k.2 = next ⟨0, hc0⟩)) ∧
          (k.1 = ⟨0, hr0⟩ ∨ k.1 = next ⟨0, hr0⟩) ∧ (k.2 = ⟨1, hc2⟩ ∨ k.2 = next ⟨1, hc2⟩)) =
        ({⟨0, hr0⟩, ⟨1, by omega⟩} : Finset (Fin rows)) ×ˢ ({⟨1, hc2⟩} : Finset (Fin cols)) := by
      ext k
      simp only [Finset.mem_filter, Finset.mem_univ, true_and, Finset.mem_insert, Finset.mem_singleton,
        Finset.mem_product, Fin.ext_iff, e1, e2]
      omega
    rw [hcard, Finset.card_product, Finset.card_pair (by simp), Finset.card_singleton] at this
    exact h2 (by exact_mod_cast this)

/-! ### Hypergraph products -/

theorem mem_sliceFrom_left {a b : ℕ} (i : Fin a) : Fin.castAdd b i ∉ sliceFrom a (a + b) := by
  simp [sliceFrom]

theorem mem_sliceFrom_right {a b : ℕ} (i : Fin b) : Fin.natAdd a i ∈ sliceFrom a (a + b) := by
  simp [sliceFrom]

/-- **C98**, any field: conjugated on the second sector, the checks of a hypergraph product commute exactly if the field
has characteristic two or one of the matrices is zero. -/
theorem C98_hgp_commute (A : Rows F n) (B : Rows F m) :
    AllCommute ((blockDiag2 (hgpX id A B) (hgpZ id A B)).map
        (conjugateRow (sliceFrom (n * m) (n * m + A.length * B.length)))) ↔
      (2 : F) = 0 ∨ (∀ a ∈ A, a = 0) ∨ ∀ b ∈ B, b = 0 := by
  rw [C98_commute]
  have key : ∀ (i : Fin A.length) (j : Fin m) (k : Fin n) (l : Fin B.length),
      (((∑ q, if q ∈ sliceFrom (n * m) (n * m + A.length * B.length) then 0
          else hgpRowX id A B i j q * hgpRowZ id A B k l q) =
        ∑ q, if q ∈ sliceFrom (n * m) (n * m + A.length * B.length) then
          hgpRowX id A B i j q * hgpRowZ id A B k l q else 0) ↔ 2 * (A.get i k * B.get l j) = 0) := by
    intro i j k l
    rw [Fin.sum_univ_add, Fin.sum_univ_add]
    simp only [mem_sliceFrom_left, mem_sliceFrom_right, if_false, if_true, Finset.sum_const_zero, add_zero, zero_add]
    have s1 : ∑ q, hgpRowX id A B i j (Fin.castAdd _ q) * hgpRowZ id A B k l (Fin.castAdd _ q) =
        - (A.get i k * B.get l j) := by
      simp only [hgpRowX, hgpRowZ, Fin.append_left]
      rw [sum_flatG, Finset.sum_eq_single (k, j)]
      · simp [kronRow_flat, unitRow]
      · rintro ⟨p, q⟩ _ hpq
        simp only [kronRow_flat, unitRow]
        by_cases h1 : p = k
        · have h2 : q ≠ j := fun h => hpq (by rw [h1, h])
          simp [h2, Ne.symm h2]
        · simp [h1, Ne.symm h1]
      · intro h; exact absurd (Finset.mem_univ _) h
    have s2 : ∑ q, hgpRowX id A B i j (Fin.natAdd _ q) * hgpRowZ id A B k l (Fin.natAdd _ q) =
        A.get i k * B.get l j := by
      simp only [hgpRowX, hgpRowZ, Fin.append_right]
      rw [sum_flatG, Finset.sum_eq_single (i, l)]
      · simp [kronRow_flat, unitRow, mul_comm]
      · rintro ⟨p, q⟩ _ hpq
        simp only [kronRow_flat, unitRow]
        by_cases h1 : p = i
        · have h2 : q ≠ l := fun h => hpq (by rw [h1, h])
          simp [h2, Ne.symm h2]
        · simp [h1, Ne.symm h1]
      · intro h; exact absurd (Finset.mem_univ _) h
    rw [s1, s2, neg_eq_iff_add_eq_zero, two_mul]
  simp only [mem_hgpX, mem_hgpZ]
  constructor
  · intro h
    by_contra hcon
    push Not at hcon
    obtain ⟨h2, ⟨a, ha, ha0⟩, b, hb, hb0⟩ := hcon
    obtain ⟨i, rfl⟩ := List.mem_iff_get.1 ha
    obtain ⟨l, rfl⟩ := List.mem_iff_get.1 hb
    obtain ⟨k, hk⟩ := Function.ne_iff.1 ha0
    obtain ⟨j, hj⟩ := Function.ne_iff.1 hb0
    have := (key i j k l).1 (h _ ⟨i, j, rfl⟩ _ ⟨k, l, rfl⟩)
    exact mul_ne_zero h2 (mul_ne_zero hk hj) this
  · rintro h _ ⟨i, j, rfl⟩ _ ⟨k, l, rfl⟩
    rw [key]
    rcases h with h | h | h
    · rw [h, zero_mul]
    · rw [h _ (List.get_mem A i)]; simp
    · rw [h _ (List.get_mem B l)]; simp

theorem conjugated_shape {c c' : QCode F n} {qs : List (Fin n)} (h : c.conjugated qs = .ok c') :
    c'.matrix = c.matrix.map (conjugateRow qs) ∧ c'.isSub = c.isSub := by
  unfold QCode.conjugated at h
  simp only at h
  split at h
  · cases h; exact ⟨rfl, rfl⟩
  · unfold QCode.setLogicalOps at h
    simp only [if_true] at h
    split_ifs at h
    cases h; exact ⟨rfl, rfl⟩

theorem sector_shape {s : ℕ} {hx hz : Rows F n} {r : Fin (n + n) → F}
    (hr : r ∈ (blockDiag2 hx hz).map (conjugateRow (sliceFrom s n))) :
    (∀ q : Fin n, if q.val < s then zPart r q = 0 else xPart r q = 0) ∨
      ∀ q : Fin n, if q.val < s then xPart r q = 0 else zPart r q = 0 := by
  obtain ⟨r', hr', rfl⟩ := List.mem_map.1 hr
  have hq : ∀ q : Fin n, q ∈ sliceFrom s n ↔ ¬ q.val < s := by
    intro q
    simp [sliceFrom]
  rcases mem_blockDiag2_rows.1 hr' with ⟨x, -, rfl⟩ | ⟨z, -, rfl⟩
  · left
    intro q
    unfold conjugateRow
    simp only [xPart_append, zPart_append, hq]
    split_ifs <;> rfl
  · right
    intro q
    unfold conjugateRow
    simp only [xPart_append, zPart_append, hq]
    split_ifs <;> rfl

/-- **C98**: over every field of characteristic two, `HGPCode(code_a, code_b).conjugated()` is a stabilizer code with
`k_A k_B + k_A' k_B'` logical qudits (primes for transposed codes); every check consists of powers of X on the first
sector and powers of Z on the second, or the other way around.  If the product has canonical logical operators, then
the conjugated ones are logical operators of the conjugated code. -/
theorem C98_hgp [CharP F 2] (A : Rows F n) (B : Rows F m) (setLogicals : Bool) :
    let a := CCode.ofMatrix A
    let b := CCode.ofMatrix B
    let qs := sliceFrom (n * m) (n * m + A.length * B.length)
    ∃ c, (hgpCode a b setLogicals).conjugated (some qs) none = .ok c ∧ c.isSub = false ∧ AllCommute c.matrix ∧
      c.dimension = codeDim A * codeDim B + codeDim (transposeRows id A) * codeDim (transposeRows id B) ∧
      (∀ d, IsCodeDistance c.matrix d ↔ IsCodeDistance (blockDiag2 (hgpX id A B) (hgpZ id A B)) d) ∧
      (∀ r ∈ c.matrix,
        (∀ q : Fin (n * m + A.length * B.length), if q.val < n * m then zPart r q = 0 else xPart r q = 0) ∨
        ∀ q : Fin (n * m + A.length * B.length), if q.val < n * m then xPart r q = 0 else zPart r q = 0) ∧
      (setLogicals = true → ∃ LX LZ, c.getLogicalOps = some (LX ++ LZ) ∧ IsLogicalBasis c.matrix LX LZ ∧
        LX = (hgpLogicals a b).1.map (fun l => conjugateRow qs (Fin.append l 0)) ∧
        LZ = (hgpLogicals a b).2.map (fun l => conjugateRow qs (Fin.append 0 l))) := by
  intro a b qs
  obtain ⟨hb, hk, hdim, -⟩ := C46_logicals A B
  have hdim' : codeDim (hgpX id A B) + codeDim (hgpZ id A B) = n * m + A.length * B.length +
      (codeDim A * codeDim B + codeDim (transposeRows id A) * codeDim (transposeRows id B)) := by
    rw [← hdim, hk, Nat.add_comm]
  have hstab := stabDimension_css hdim'
  have hdc := dimension_conjugateRow qs (blockDiag2 (hgpX id A B) (hgpZ id A B)) false
  obtain ⟨-, hnone, hsome⟩ := C24_conjugated_partial (hgpCode a b setLogicals).toQudit qs
  have hex : ∃ c, (hgpCode a b setLogicals).conjugated (some qs) none = .ok c ∧
      c.dimension = codeDim A * codeDim B + codeDim (transposeRows id A) * codeDim (transposeRows id B) ∧
      (setLogicals = true → ∃ LX LZ, c.getLogicalOps = some (LX ++ LZ) ∧ IsLogicalBasis c.matrix LX LZ ∧
        LX = (hgpLogicals a b).1.map (fun l => conjugateRow qs (Fin.append l 0)) ∧
        LZ = (hgpLogicals a b).2.map (fun l => conjugateRow qs (Fin.append 0 l))) := by
    cases setLogicals with
    | false =>
      refine ⟨{ matrix := (blockDiag2 (hgpX id A B) (hgpZ id A B)).map (conjugateRow qs), isSub := false }, rfl, ?_,
        fun h => by cases h⟩
      exact hdc.trans hstab
    | true =>
      have hb' := isLogicalBasis_of_css hb
      obtain ⟨c', h1, h2, h3, h4⟩ := hsome _ _ rfl hb' (by
        rw [List.length_map, hk]
        exact hstab.symm)
      refine ⟨c', h1, ?_, fun _ => ⟨_, _, h3, h4, by rw [List.map_map]; rfl, by rw [List.map_map]; rfl⟩⟩
      have h5 : (hgpCode a b true).toQudit.conjugated qs = .ok c' := h1
      have h6 : ({ matrix := (blockDiag2 (hgpX id A B) (hgpZ id A B)).map (conjugateRow qs), isSub := false } :
          QCode F _).setLogicalOps ((blockDiag2 (hgpLogicals a b).1 (hgpLogicals a b).2).map (conjugateRow qs)) =
            .ok c' := h5
      obtain ⟨_, _, _, _, _, _, _, _, _, h7⟩ := C21_accepted_partial _ _ _ h6
      exact h7.trans (hdc.trans hstab)
  obtain ⟨c, hc, hcd, hcl⟩ := hex
  obtain ⟨hm, hs⟩ := conjugated_shape (c := (hgpCode a b setLogicals).toQudit) hc
  have hm' : c.matrix = (blockDiag2 (hgpX id A B) (hgpZ id A B)).map (conjugateRow qs) := by
    rw [hm]; cases setLogicals <;> rfl
  have hall : AllCommute c.matrix := by
    rw [hm']
    exact (C98_hgp_commute A B).2 (.inl (CharTwo.two_eq_zero))
  refine ⟨c, hc, by rw [hs]; cases setLogicals <;> rfl, hall, hcd, fun d => ?_, fun r hr => ?_, hcl⟩
  · rw [hm']
    exact ((C98_parameters qs _).2.2 inferInstance).2 d
  · rw [hm'] at hr
    exact sector_shape hr

/-- **C98** fails for hypergraph products over every field of odd characteristic: unless one of the matrices is zero,
a code that is returned has checks that do not commute, and reports to be a stabilizer code.  Without canonical logical
operators, a code is always returned. -/
theorem C98_hgp_disagreement (h2 : (2 : F) ≠ 0) (A : Rows F n) (B : Rows F m) (hA : ∃ a ∈ A, a ≠ 0)
    (hB : ∃ b ∈ B, b ≠ 0) :
    let a := CCode.ofMatrix A
    let b := CCode.ofMatrix B
    let qs := sliceFrom (n * m) (n * m + A.length * B.length)
    (∃ c, (hgpCode a b false).conjugated (some qs) none = .ok c) ∧
      ∀ s c, (hgpCode a b s).conjugated (some qs) none = .ok c → c.isSub = false ∧ ¬ AllCommute c.matrix := by
  intro a b qs
  refine ⟨⟨_, rfl⟩, fun s c hc => ?_⟩
  obtain ⟨hm, hs⟩ := conjugated_shape (c := (hgpCode a b s).toQudit) hc
  have hm' : c.matrix = (blockDiag2 (hgpX id A B) (hgpZ id A B)).map (conjugateRow qs) := by
    rw [hm]; cases s <;> rfl
  refine ⟨by rw [hs]; cases s <;> rfl, ?_⟩
  rw [hm']
  intro hcon
  rcases (C98_hgp_commute A B).1 hcon with h | h | h
  · exact h2 h
  · obtain ⟨x, hx, h0⟩ := hA; exact h0 (h x hx)
  · obtain ⟨x, hx, h0⟩ := hB; exact h0 (h x hx)

/-- **C98**: a code without default qudits is returned unchanged, and qudits that are given take precedence. -/
theorem C98_default (c : CssCode F n) (d : Option (List (Fin n))) (qs : List (Fin n)) :
    c.conjugated d (some qs) = c.toQudit.conjugated qs ∧
      c.conjugated none none = c.toQudit.conjugated [] ∧
      ∀ c', c.conjugated none none = .ok c' → c'.matrix = blockDiag2 c.hx c.hz ∧ c'.isSub = c.isSub := by
  refine ⟨rfl, rfl, fun c' h => ?_⟩
  obtain ⟨h1, h2⟩ := conjugated_shape (c := c.toQudit) h
  refine ⟨?_, h2⟩
  rw [h1, List.map_congr_left (g := id), List.map_id]
  · rfl
  · intro r _
    unfold conjugateRow
    simp only [List.not_mem_nil, if_false]
    exact append_parts r

/-- A surface code with three rows and two columns: conjugating every other qubit exchanges X and Z there. -/
example : checkerboard 3 2 = [1, 2, 5] := by decide +kernel
example : (surfaceCode (ZMod 2) 2 2).map (fun code =>
    ((CssCode.ofMatrices code.hx code.hz none true).conjugated (some (checkerboard 2 2)) none).toOption.map
      QCode.matrix) = some (some [![1, 0, 0, 1, 0, 1, 1, 0], ![0, 1, 0, 0, 1, 0, 0, 0], ![0, 0, 1, 0, 0, 0, 0, 1]]) := by
  decide +kernel
example : ∃ a ∈ ([![1, 2]] : Rows (ZMod 3) 2), a ≠ 0 := ⟨_, List.mem_singleton_self _, by decide⟩
example : (2 : ZMod 3) ≠ 0 := by decide
example : CharP (ZMod 2) 2 := inferInstance
example : ((hgpCode (CCode.ofMatrix ([![1, 1]] : Rows (ZMod 2) 2)) (CCode.ofMatrix [![1, 1]]) true).conjugated
    (some (sliceFrom 4 5)) none).isOk = true := by decide +kernel
/-- over three symbols, the canonical logical operators of this product are rejected after the conjugation -/
example : ((hgpCode (CCode.ofMatrix ([![1, 2], ![1, 2]] : Rows (ZMod 3) 2)) (CCode.ofMatrix [![1, 2], ![1, 2]])
    true).conjugated (some (sliceFrom 4 8)) none).isOk = false := by decide +kernel

section AxiomCheck
#print axioms C98_parameters
#print axioms C98_commute
#print axioms C98_surface
#print axioms C98_toric
#print axioms C98_surface_disagreement
#print axioms C98_toric_disagreement
#print axioms C98_hgp_commute
#print axioms C98_hgp
#print axioms C98_hgp_disagreement
#print axioms C98_default
end AxiomCheck

/-! ### Instances of the theorems: concrete cases meet the hypotheses -/

example := C98_surface (F := ZMod 2) 2 3 (by decide) (by decide)
example := C98_toric (F := ZMod 2) 2 4 (by decide) (by decide) (by decide) (by decide)

end QLDPC.Props
