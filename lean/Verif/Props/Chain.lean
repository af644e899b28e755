import Verif.Lemmas.ChainTensor
import Verif.Props.Product
import Mathlib.Algebra.MonoidAlgebra.Defs
import Mathlib.Algebra.MonoidAlgebra.Basic
import Mathlib.Algebra.Field.ZMod
import Mathlib.Data.Fintype.Perm
import Mathlib.Tactic.IntervalCases

/-! # C50: chain complexes and their tensor products -/

namespace QLDPC.Props

open QLDPC QLDPC.Spec Mat Chain

section
variable {R : Type} [Ring R]

private theorem dim_zero (c : Chain R) (h : 0 < c.ops.length) : c.dim 0 = c.ops[0].rows := by
  obtain ⟨ops⟩ := c
  cases ops with
  | nil => simp at h
  | cons A l => simp [dim, op, zeros]

private theorem dim_succ (c : Chain R) {k : ℕ} (h : k < c.ops.length) : c.dim (k + 1) = c.ops[k].cols := by
  rw [dim, op_succ h]

/-- Validation accepts precisely the sequences of matrices that are chain complexes. -/
theorem C50_validate [DecidableEq R] (c : Chain R) : c.validate = true ↔ ∃ d, IsComplex c.ops d := by
  have hz : c.validate = true ↔ ∀ k A B, c.ops[k]? = some A → c.ops[k + 1]? = some B → A.cols = B.rows ∧
      ∀ i j, i < A.rows → j < B.cols → ∑ x ∈ Finset.range A.cols, A.e i x * B.e x j = 0 := by
    unfold validate
    rw [List.all_eq_true]
    constructor
    · intro h k A B hA hB
      have hm : (A, B) ∈ c.ops.zip c.ops.tail := by
        rw [List.mem_iff_getElem?]
        exact ⟨k, by rw [List.getElem?_zip_eq_some, List.getElem?_tail]; exact ⟨hA, hB⟩⟩
      have := h _ hm
      simp only [Bool.and_eq_true, decide_eq_true_eq, List.all_eq_true, List.mem_range] at this
      exact ⟨this.1, fun i j hi hj => this.2 i hi j hj⟩
    · rintro h ⟨A, B⟩ hm
      rw [List.mem_iff_getElem?] at hm
      obtain ⟨k, hk⟩ := hm
      rw [List.getElem?_zip_eq_some, List.getElem?_tail] at hk
      have := h k A B hk.1 hk.2
      simp only [Bool.and_eq_true, decide_eq_true_eq, List.all_eq_true, List.mem_range]
      exact ⟨this.1, fun i hi j hj => this.2 i j hi hj⟩
  rw [hz]
  constructor
  · intro h
    refine ⟨c.dim, ?_, ?_⟩
    · intro k A hA
      obtain ⟨hk, rfl⟩ := List.getElem?_eq_some_iff.1 hA
      refine ⟨?_, (dim_succ c hk).symm⟩
      cases k with
      | zero => exact (dim_zero c hk).symm
      | succ k =>
        rw [dim_succ c (by omega)]
        exact (h k _ _ (List.getElem?_eq_getElem (by omega)) hA).1.symm
    · intro k A B hA hB i j hi hj
      have e := h k A B hA hB
      obtain ⟨hk, rfl⟩ := List.getElem?_eq_some_iff.1 hA
      obtain ⟨hk', rfl⟩ := List.getElem?_eq_some_iff.1 hB
      rw [dim_succ c hk]
      rw [dim_succ c hk'] at hj
      refine e.2 i j ?_ hj
      cases k with
      | zero => rwa [dim_zero c hk] at hi
      | succ k =>
        rw [dim_succ c (by omega), (h k _ _ (List.getElem?_eq_getElem (by omega)) hA).1] at hi
        exact hi
  · rintro ⟨d, h1, h2⟩ k A B hA hB
    have a1 := h1 k A hA
    have b1 := h1 (k + 1) B hB
    refine ⟨by rw [a1.2, b1.1], fun i j hi hj => ?_⟩
    rw [a1.2]
    exact h2 k A B hA hB i j (by rw [← a1.1]; exact hi) (by rw [← b1.2]; exact hj)

/-- The boundary operators with the two trivial ones at the ends: `op(k)` is a `dim(k-1) × dim(k)` matrix, and
`op(k) @ op(k+1)` is zero. -/
theorem C50_ops (c : Chain R) (d : ℕ → ℕ) (h : IsComplex c.ops d) (h0 : c.ops ≠ []) :
    (c.op 0).rows = 0 ∧ (c.op (c.links + 1)).cols = 0 ∧ (∀ k, k ≤ c.links → c.dim k = d k) ∧
    (∀ k, k ≤ c.links → (c.op (k + 1)).rows = c.dim k) ∧
    (∀ k, k < c.links → c.ops[k]? = some (c.op (k + 1))) ∧
    ∀ k, k ≤ c.links → ∀ i j, i < (c.op k).rows → j < (c.op (k + 1)).cols → ((c.op k).mul (c.op (k + 1))).e i j = 0 := by
  have hd : ∀ k, k ≤ c.links → c.dim k = d k := fun k hk => dim_eq h h0 hk
  have hlast : (c.op (c.links + 1)).rows = c.dim c.links ∧ (c.op (c.links + 1)).cols = 0 := by
    have hne : c.ops.length ≠ 0 := by simpa using h0
    unfold op links
    rw [if_neg (by omega), if_pos rfl]
    refine ⟨?_, rfl⟩
    obtain ⟨n, hn⟩ : ∃ n, c.ops.length = n + 1 := ⟨c.ops.length - 1, by omega⟩
    have hn' : n < c.ops.length := by omega
    have e := dim_succ c hn'
    rw [← hn] at e
    rw [e, List.getLast?_eq_getElem?]
    have e2 : c.ops.length - 1 = n := by omega
    simp [zeros, e2, hn']
  refine ⟨rfl, hlast.2, hd, ?_, ?_, ?_⟩
  · intro k hk
    by_cases he : k = c.links
    · rw [he]; exact hlast.1
    · have hk' : k < c.ops.length := by unfold links at *; omega
      rw [hd k hk, op_succ hk']
      exact (h.1 k _ (List.getElem?_eq_getElem hk')).1
  · intro k hk
    have hk' : k < c.ops.length := hk
    rw [op_succ hk', List.getElem?_eq_getElem hk']
  · intro k hk i j hi hj
    by_cases he : k = c.links
    · subst he; rw [hlast.2] at hj; omega
    have hk' : k < c.ops.length := by unfold links at *; omega
    cases k with
    | zero => exact absurd hi (Nat.not_lt_zero i)
    | succ k =>
      rw [op_succ hk', op_succ (show k < c.ops.length by omega)] at *
      have e1 := h.1 k _ (List.getElem?_eq_getElem (show k < c.ops.length by omega))
      have e2 := h.1 (k + 1) _ (List.getElem?_eq_getElem hk')
      simp only [mul]
      rw [e1.2]
      exact h.2 k _ _ (List.getElem?_eq_getElem (by omega)) (List.getElem?_eq_getElem hk') i j
        (by rw [← e1.1]; exact hi) (by rw [← e2.2]; exact hj)

/-- The transposed complex, over a commutative ring, is the dual complex. -/
theorem C50_transpose {F : Type} [CommRing F] (c : Chain F) (d : ℕ → ℕ) (h : IsComplex c.ops d) :
    IsComplex c.T.ops (fun k => d (c.links - k)) ∧
    ∀ k A, c.ops[k]? = some A → c.T.ops[c.links - 1 - k]? = some A.T := by
  have hidx : ∀ k A, c.T.ops[k]? = some A ↔ k < c.ops.length ∧ ∃ B, c.ops[c.ops.length - 1 - k]? = some B ∧ B.T = A := by
    intro k A
    unfold Chain.T
    rw [List.getElem?_map, Option.map_eq_some_iff]
    constructor
    · rintro ⟨B, hB, rfl⟩
      have hk : k < c.ops.length := by simpa using (List.getElem?_eq_some_iff.1 hB).1
      rw [List.getElem?_reverse hk] at hB
      exact ⟨hk, B, hB, rfl⟩
    · rintro ⟨hk, B, hB, rfl⟩
      exact ⟨B, by rw [List.getElem?_reverse hk]; exact hB, rfl⟩
  refine ⟨⟨?_, ?_⟩, ?_⟩
  · intro k A hA
    obtain ⟨hk, B, hB, rfl⟩ := (hidx k A).1 hA
    have := h.1 _ B hB
    unfold links
    simp only [Mat.T]
    rw [this.1, this.2]
    exact ⟨congrArg d (by omega), congrArg d (by omega)⟩
  · intro k A B hA hB i j hi hj
    obtain ⟨hk, A', hA', rfl⟩ := (hidx k A).1 hA
    obtain ⟨hk', B', hB', rfl⟩ := (hidx (k + 1) B).1 hB
    unfold links at *
    have e1 : c.ops.length - (k + 2) = c.ops.length - 1 - (k + 1) := by omega
    have e2 : c.ops.length - (k + 1) = c.ops.length - 1 - (k + 1) + 1 := by omega
    have e3 : c.ops.length - k = c.ops.length - 1 - (k + 1) + 2 := by omega
    have e4 : c.ops.length - 1 - k = c.ops.length - 1 - (k + 1) + 1 := by omega
    simp only [e1, e2, e3, e4] at *
    have := h.2 _ B' A' hB' hA' j i hj hi
    simp only [Mat.T]
    rw [← this]
    exact Finset.sum_congr rfl fun x _ => mul_comm _ _
  · intro k A hA
    have hk := (List.getElem?_eq_some_iff.1 hA).1
    refine (hidx _ _).2 ⟨by unfold links; omega, A, ?_, rfl⟩
    rw [← hA]
    congr 1
    unfold links
    omega

/-- The tensor product of two complexes is built without an exception.  It has as many links as the two have
together, its modules have dimension `∑_{i+j=k} dim A_i * dim B_j`, and its boundary operators are those of
`d(a ⊗ b) = d(a) ⊗ b + (-1)^(deg a) a ⊗ d(b)`, entry by entry. -/
theorem C50_tensor_product (a b : Chain R) (dA dB : ℕ → ℕ) (ha : IsComplex a.ops dA) (hb : IsComplex b.ops dB)
    (ha0 : a.ops ≠ []) (hb0 : b.ops ≠ []) :
    ∃ c, tensorProduct a b = some c ∧ c.ops.length = a.ops.length + b.ops.length ∧
      (∀ k M, c.ops[k]? = some M → M.rows = tensorDim a.ops.length b.ops.length dA dB k ∧
        M.cols = tensorDim a.ops.length b.ops.length dA dB (k + 1)) ∧
      (∀ k p q x y x' y', p ∈ sectors a.ops.length b.ops.length k → q ∈ sectors a.ops.length b.ops.length (k + 1) →
        x < dA p.1 → y < dB p.2 → x' < dA q.1 → y' < dB q.2 →
        boundaryEntry c.ops k (tensorIndex a.ops.length b.ops.length dA dB p x y)
            (tensorIndex a.ops.length b.ops.length dA dB q x' y') =
          tensorEntry a.ops b.ops p q x y x' y') ∧
      ∀ k i, i < tensorDim a.ops.length b.ops.length dA dB k → ∃ p ∈ sectors a.ops.length b.ops.length k,
        ∃ x y, x < dA p.1 ∧ y < dB p.2 ∧ i = tensorIndex a.ops.length b.ops.length dA dB p x y := by
  obtain ⟨c, h1, h2, h3, h4⟩ := tensorProduct_spec ha hb ha0 hb0
  exact ⟨c, h1, h2, h3, h4, fun k i hi => exists_tensorIndex hi⟩

/-- The tensor product of two complexes over a field, or over any commutative ring, is a complex.  It would pass the
validation that the code skips. -/
theorem C50_tensor_complex {F : Type} [CommRing F] [DecidableEq F] (a b c : Chain F) (dA dB : ℕ → ℕ)
    (ha : IsComplex a.ops dA) (hb : IsComplex b.ops dB) (ha0 : a.ops ≠ []) (hb0 : b.ops ≠ [])
    (hc : tensorProduct a b = some c) :
    IsComplex c.ops (tensorDim a.ops.length b.ops.length dA dB) ∧ c.validate = true := by
  have := tensorProduct_complex ha hb ha0 hb0 (fun _ _ _ _ _ _ _ _ _ _ => Commute.all _ _) hc
  exact ⟨this, (C50_validate c).2 ⟨_, this⟩⟩

/-- dimensions of the complex of one map -/
private def mapDim (A : Mat R) (k : ℕ) : ℕ := if k = 0 then A.rows else A.cols

private theorem isComplex_map (A : Mat R) : IsComplex [A] (mapDim A) := by
  constructor
  · intro k B hk
    cases k with
    | zero => simp at hk; subst hk; simp [mapDim]
    | succ k => simp at hk
  · intro k B C _ h
    simp at h

private theorem sectors_zero : sectors 1 1 0 = {(0, 0)} := by decide
private theorem sectors_one : sectors 1 1 1 = {(1, 0), (0, 1)} := by decide
private theorem sectors_two : sectors 1 1 2 = {(1, 1)} := by decide

private theorem index_00 (dA dB : ℕ → ℕ) (x y : ℕ) : tensorIndex 1 1 dA dB (0, 0) x y = x * dB 0 + y := by
  have : (sectors 1 1 0).filter (fun q => 0 < q.1) = ∅ := by decide
  simp [tensorIndex, this]

private theorem index_10 (dA dB : ℕ → ℕ) (x y : ℕ) : tensorIndex 1 1 dA dB (1, 0) x y = x * dB 0 + y := by
  have : (sectors 1 1 1).filter (fun q => 1 < q.1) = ∅ := by decide
  simp [tensorIndex, this]

private theorem index_01 (dA dB : ℕ → ℕ) (x y : ℕ) :
    tensorIndex 1 1 dA dB (0, 1) x y = dA 1 * dB 0 + (x * dB 1 + y) := by
  have : (sectors 1 1 1).filter (fun q => 0 < q.1) = {(1, 0)} := by decide
  simp [tensorIndex, this]

private theorem index_11 (dA dB : ℕ → ℕ) (x y : ℕ) : tensorIndex 1 1 dA dB (1, 1) x y = x * dB 1 + y := by
  have : (sectors 1 1 2).filter (fun q => 1 < q.1) = ∅ := by decide
  simp [tensorIndex, this]

/-- The tensor product of two maps over any ring is a complex precisely when the entries of the one commute with the
entries of the other. -/
theorem C50_tensor_ring (A B : Mat R) (c : Chain R) (hc : tensorProduct ⟨[A]⟩ ⟨[B]⟩ = some c) :
    (∃ d, IsComplex c.ops d) ↔
      ∀ i j i' j', i < A.rows → j < A.cols → i' < B.rows → j' < B.cols → A.e i j * B.e i' j' = B.e i' j' * A.e i j := by
  have hA := isComplex_map A
  have hB := isComplex_map B
  obtain ⟨c', h1, h2, h3, h4⟩ := tensorProduct_spec (a := ⟨[A]⟩) (b := ⟨[B]⟩) hA hB (by simp) (by simp)
  rw [hc] at h1
  obtain rfl := Option.some.inj h1
  simp only [List.length_singleton] at h2 h3 h4
  constructor
  · rintro ⟨d, e1, e2⟩ i j i' j' hi hj hi' hj'
    obtain ⟨X, Z, hXZ⟩ := List.length_eq_two.1 h2
    have x1 := h3 0 X (by rw [hXZ]; rfl)
    have z1 := h3 1 Z (by rw [hXZ]; rfl)
    have x2 := e1 0 X (by rw [hXZ]; rfl)
    have z2 := e1 1 Z (by rw [hXZ]; rfl)
    have hmem : ((0, 0) : ℕ × ℕ) ∈ sectors 1 1 0 := by decide
    have hmem' : ((1, 1) : ℕ × ℕ) ∈ sectors 1 1 2 := by decide
    have lt1 := tensorIndex_lt (dA := mapDim A) (dB := mapDim B) hmem (x := i) (y := i') hi hi'
    have lt2 := tensorIndex_lt (dA := mapDim A) (dB := mapDim B) hmem' (x := j) (y := j') hj hj'
    have hs := e2 0 X Z (by rw [hXZ]; rfl) (by rw [hXZ]; rfl) _ _ (by rw [← x2.1, x1.1]; exact lt1)
      (by rw [← z2.2, z1.2]; exact lt2)
    rw [← x2.2, x1.2, sum_tensorDim] at hs
    have hm := tensor_mid (oA := [A]) (oB := [B]) (dA := mapDim A) (dB := mapDim B) (la := 1) (lb := 1) (k := 0)
      (s1 := 0) (s2 := 0) rfl (le_refl _) (le_refl _) (x := i) (y := i') (x' := j) (y' := j') hi hi' hj hj'
    have hs' := hm.symm.trans (Eq.trans (Finset.sum_congr rfl fun t ht => Finset.sum_congr rfl fun u hu =>
      Finset.sum_congr rfl fun v hv => ?_) hs)
    · simp only [boundaryEntry, List.getElem?_cons_zero, zero_add, pow_zero, pow_one, neg_mul, one_mul, mul_neg] at hs'
      exact (neg_add_eq_zero.1 hs')
    · have f1 := h4 0 (0, 0) t i i' u v hmem ht hi hi' (Finset.mem_range.1 hu) (Finset.mem_range.1 hv)
      have f2 := h4 1 t (1, 1) u v j j' ht hmem' (Finset.mem_range.1 hu) (Finset.mem_range.1 hv) hj hj'
      rw [← f1, ← f2, hXZ]
      rfl
  · intro h
    refine ⟨_, tensorProduct_complex hA hB (by simp) (by simp) ?_ hc⟩
    intro k l i j i' j' hi hj hi' hj'
    cases k with
    | succ k => simp [boundaryEntry]
    | zero =>
      cases l with
      | succ l => simp [boundaryEntry]
      | zero => exact h i j i' j' hi hj hi' hj'

end

section
variable {F : Type} [Field F] [DecidableEq F] {n m : ℕ}

/-- a list of rows as a matrix -/
def ofRows (A : Rows F n) : Mat F := ⟨A.length, n, matEntry A⟩

/-- The tensor product of the maps `A` and `B^T` has the X and (transposed) Z parity checks of the hypergraph product
of `A` and `B` as its boundary operators. -/
theorem C50_hypergraph (A : Rows F n) (B : Rows F m) : ∃ X Z, tensorProduct ⟨[ofRows A]⟩ ⟨[(ofRows B).T]⟩ = some ⟨[X, Z]⟩ ∧
    X.rows = (hgpX id A B).length ∧ X.cols = n * m + A.length * B.length ∧
    Z.rows = n * m + A.length * B.length ∧ Z.cols = (hgpZ id A B).length ∧
    (∀ i j, i < X.rows → j < X.cols → X.e i j = matEntry (hgpX id A B) i j) ∧
    (∀ i j, i < Z.cols → j < Z.rows → Z.e j i = matEntry (hgpZ id A B) i j) := by
  have hA := isComplex_map (ofRows A)
  have hB := isComplex_map (ofRows B).T
  obtain ⟨⟨ops⟩, h1, h2, h3, h4⟩ := tensorProduct_spec (a := ⟨[ofRows A]⟩) (b := ⟨[(ofRows B).T]⟩) hA hB (by simp) (by simp)
  simp only [List.length_singleton] at h2 h3 h4
  obtain ⟨X, Z, rfl⟩ := List.length_eq_two.1 h2
  have x1 := h3 0 X rfl
  have z1 := h3 1 Z rfl
  have a0 : mapDim (ofRows A) 0 = A.length := rfl
  have a1 : mapDim (ofRows A) 1 = n := rfl
  have b0 : mapDim (ofRows B).T 0 = m := rfl
  have b1 : mapDim (ofRows B).T 1 = B.length := rfl
  have d0 : tensorDim 1 1 (mapDim (ofRows A)) (mapDim (ofRows B).T) 0 = A.length * m := by
    simp [tensorDim, sectors_zero, a0, b0]
  have d1 : tensorDim 1 1 (mapDim (ofRows A)) (mapDim (ofRows B).T) 1 = n * m + A.length * B.length := by
    rw [tensorDim, sectors_one, Finset.sum_insert (by decide), Finset.sum_singleton]
    simp only [a0, a1, b0, b1]
  have d2 : tensorDim 1 1 (mapDim (ofRows A)) (mapDim (ofRows B).T) 2 = n * B.length := by
    simp [tensorDim, sectors_two, a1, b1]
  obtain ⟨lx, hx⟩ := C46_matrix_x A B
  obtain ⟨lz, hz⟩ := C46_matrix_z A B
  refine ⟨X, Z, h1, by rw [x1.1, d0, lx], by rw [x1.2, d1], by rw [z1.1, d1], by rw [z1.2, d2, lz], ?_, ?_⟩
  · intro i j hi hj
    rw [x1.1] at hi
    rw [x1.2] at hj
    obtain ⟨p, hp, x, y, px, py, rfl⟩ := exists_tensorIndex hi
    obtain ⟨q, hq, x', y', qx, qy, rfl⟩ := exists_tensorIndex hj
    have e := h4 0 p q x y x' y' hp hq px py qx qy
    rw [sectors_zero, Finset.mem_singleton] at hp
    rw [sectors_one, Finset.mem_insert, Finset.mem_singleton] at hq
    subst hp
    refine Eq.trans e ?_
    have px' : x < A.length := px
    have py' : y < m := py
    rcases hq with rfl | rfl
    · rw [index_00, index_10, b0, (hx x y px' py').1 x' y' qx qy, tensorEntry_left]
      rfl
    · rw [index_00, index_01, a1, b0, b1, (hx x y px' py').2 x' y' qx qy, tensorEntry_right, pow_zero, one_mul]
      rfl
  · intro i j hi hj
    rw [z1.2] at hi
    rw [z1.1] at hj
    obtain ⟨p, hp, x, y, px, py, rfl⟩ := exists_tensorIndex hi
    obtain ⟨q, hq, x', y', qx, qy, rfl⟩ := exists_tensorIndex hj
    have e := h4 1 q p x' y' x y hq hp qx qy px py
    rw [sectors_two, Finset.mem_singleton] at hp
    rw [sectors_one, Finset.mem_insert, Finset.mem_singleton] at hq
    subst hp
    refine Eq.trans e ?_
    have px' : x < n := px
    have py' : y < B.length := py
    rcases hq with rfl | rfl
    · rw [index_11, index_10, b0, b1, (hz x y px' py').1 x' y' qx qy, tensorEntry_right]
      simp only [eq_comm (a := x'), pow_one, neg_mul, one_mul]
      rfl
    · rw [index_11, index_01, a1, b0, b1, (hz x y px' py').2 x' y' qx qy, tensorEntry_left]
      simp only [eq_comm (a := y')]
      rfl

end

/-- The claim of the code, that a tensor product needs no validation, fails over the algebra of a nonabelian group:
this tensor product of two complexes is not a complex. -/
theorem C50_nonabelian_disagreement : ∃ a b c : Chain (MonoidAlgebra (ZMod 2) (Equiv.Perm (Fin 3))),
    (∃ d, IsComplex a.ops d) ∧ (∃ d, IsComplex b.ops d) ∧ tensorProduct a b = some c ∧ ¬ ∃ d, IsComplex c.ops d := by
  let A : Mat (MonoidAlgebra (ZMod 2) (Equiv.Perm (Fin 3))) := ⟨1, 1, fun _ _ => MonoidAlgebra.of _ _ (Equiv.swap 0 1)⟩
  let B : Mat (MonoidAlgebra (ZMod 2) (Equiv.Perm (Fin 3))) := ⟨1, 1, fun _ _ => MonoidAlgebra.of _ _ (Equiv.swap 1 2)⟩
  obtain ⟨c, h1, -⟩ := tensorProduct_spec (a := ⟨[A]⟩) (b := ⟨[B]⟩) (isComplex_map A) (isComplex_map B) (by simp) (by simp)
  refine ⟨⟨[A]⟩, ⟨[B]⟩, c, ⟨_, isComplex_map A⟩, ⟨_, isComplex_map B⟩, h1, ?_⟩
  rw [C50_tensor_ring A B c h1]
  intro h
  have := h 0 0 0 0 (by decide) (by decide) (by decide) (by decide)
  simp only [A, B, ← map_mul] at this
  have h2 := MonoidAlgebra.of_injective this
  exact absurd h2 (by decide)

/-! ## The hypotheses can be met -/

/-- the chain complex of a filled triangle over `ZMod 3`: three vertices, three edges, one face -/
private def triangle : Chain (ZMod 3) :=
  ⟨[⟨3, 3, fun i j => if i = j then -1 else if i = (j + 1) % 3 then 1 else 0⟩, ⟨3, 1, fun _ _ => 1⟩]⟩

example : triangle.validate = true ∧ triangle.ops ≠ [] := by decide +kernel

private theorem triangle_complex : IsComplex triangle.ops triangle.dim := by
  constructor
  · intro k A h
    rcases k with _ | _ | k <;> simp [triangle] at h <;> subst h <;> decide
  · intro k A B hA hB
    rcases k with _ | k <;> simp [triangle] at hA hB
    subst hA hB
    have : ∀ i < triangle.dim 0, ∀ j < triangle.dim 2, ∑ x ∈ Finset.range (triangle.dim 1),
        (if i = x then -1 else if i = (x + 1) % 3 then 1 else 0 : ZMod 3) * 1 = 0 := by decide +kernel
    exact fun i j hi hj => this i hi j hj

/-- The tensor square of the filled triangle has modules of dimension 9, 18, 15, 6, 1. -/
example : ∃ c, tensorProduct triangle triangle = some c ∧ c.validate = true ∧
    c.ops.map (fun M => (M.rows, M.cols)) = [(9, 18), (18, 15), (15, 6), (6, 1)] := by
  obtain ⟨c, h1, h2, h3, -⟩ := C50_tensor_product _ _ _ _ triangle_complex triangle_complex (by decide) (by decide)
  refine ⟨c, h1, (C50_tensor_complex _ _ c _ _ triangle_complex triangle_complex (by decide) (by decide) h1).2, ?_⟩
  apply List.ext_getElem?
  intro k
  rw [List.getElem?_map]
  by_cases hk : k < 4
  · have hk' : k < c.ops.length := by rw [h2]; exact hk
    rw [List.getElem?_eq_getElem hk']
    have := h3 k _ (List.getElem?_eq_getElem hk')
    simp only [Option.map_some, this.1, this.2]
    interval_cases k <;> decide +kernel
  · rw [List.getElem?_eq_none (by rw [h2]; simpa [triangle] using hk)]
    simp only [Option.map_none]
    rw [List.getElem?_eq_none (by simpa using hk)]

section AxiomCheck
#print axioms C50_validate
#print axioms C50_ops
#print axioms C50_transpose
#print axioms C50_tensor_product
#print axioms C50_tensor_complex
#print axioms C50_tensor_ring
#print axioms C50_hypergraph
#print axioms C50_nonabelian_disagreement
end AxiomCheck

/-! ### Instances of the theorems: concrete cases meet the hypotheses -/

example := C50_ops triangle triangle.dim triangle_complex (by decide)
example := C50_transpose triangle triangle.dim triangle_complex

example : True := by
  obtain ⟨c, hc⟩ := Option.isSome_iff_exists.1 (show (Chain.tensorProduct (R := Matrix (Fin 2) (Fin 2) ℤ) ⟨[⟨1, 1, fun _ _ => !![0, 1; 0, 0]⟩]⟩
    ⟨[⟨1, 1, fun _ _ => !![0, 0; 1, 0]⟩]⟩).isSome = true by decide +kernel)
  have h := C50_tensor_ring _ _ c hc
  trivial

end QLDPC.Props
