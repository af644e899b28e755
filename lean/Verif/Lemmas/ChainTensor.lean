import Verif.Lemmas.Chain
import Verif.Spec.Chain

/-! # The boundary operators of a tensor product -/

namespace QLDPC

open Mat

variable {R : Type} [Ring R]

namespace Chain

theorem toFinset_degreePairs (la lb k : ℕ) : (degreePairs la lb k).toFinset = sectors la lb k := by
  ext p
  simp [sectors, mem_degreePairs]

theorem sum_degreePairs {M : Type} [AddCommMonoid M] (la lb k : ℕ) (f : ℕ × ℕ → M) :
    ((degreePairs la lb k).map f).sum = ∑ p ∈ sectors la lb k, f p := by
  rw [← toFinset_degreePairs, List.sum_toFinset _ (nodup_degreePairs la lb k)]

theorem sum_take_degreePairs {M : Type} [AddCommMonoid M] {la lb k : ℕ} (f : ℕ × ℕ → M) {p : ℕ × ℕ}
    (hp : p ∈ degreePairs la lb k) :
    (((degreePairs la lb k).take (blockIndex la p.1 p.2)).map f).sum =
      ∑ q ∈ (sectors la lb (p.1 + p.2)).filter (fun q => p.1 < q.1), f q := by
  rw [← List.sum_toFinset _ ((nodup_degreePairs la lb k).sublist (List.take_sublist _ _))]
  refine Finset.sum_congr ?_ fun _ _ => rfl
  ext q
  have hp' := mem_degreePairs.1 hp
  rw [List.mem_toFinset, Finset.mem_filter, hp'.1, ← toFinset_degreePairs, List.mem_toFinset,
    List.mem_iff_getElem?]
  constructor
  · rintro ⟨i, hi⟩
    rw [List.getElem?_take] at hi
    split_ifs at hi with h
    have := getElem?_degreePairs.1 hi
    have hq := mem_degreePairs.1 this.1
    refine ⟨this.1, ?_⟩
    have h2 := this.2
    unfold blockIndex at h h2
    omega
  · rintro ⟨h1, h2⟩
    have hq := mem_degreePairs.1 h1
    refine ⟨blockIndex la q.1 q.2, ?_⟩
    rw [List.getElem?_take, if_pos (by unfold blockIndex; omega)]
    exact getElem?_degreePairs.2 ⟨h1, rfl⟩

variable {a b : Chain R} {dA dB : ℕ → ℕ}

theorem op_succ {c : Chain R} {k : ℕ} (h : k < c.ops.length) : c.op (k + 1) = c.ops[k] := by
  unfold op
  rw [if_neg (by omega), if_neg (by omega)]
  simp [h]

theorem dim_eq {c : Chain R} {d : ℕ → ℕ} (hc : IsComplex c.ops d) {k : ℕ} (h0 : c.ops ≠ []) (hk : k ≤ c.ops.length) :
    c.dim k = d k := by
  cases k with
  | zero =>
    cases h : c.ops with
    | nil => exact absurd h h0
    | cons A l =>
      have := (hc.1 0 A (by simp [h])).1
      simp [dim, op, h, zeros, this]
  | succ k =>
    rw [dim, op_succ (by omega)]
    exact (hc.1 k _ (List.getElem?_eq_getElem (by omega))).2

theorem sectorBlock_spec (ha : IsComplex a.ops dA) (hb : IsComplex b.ops dB) (ha0 : a.ops ≠ []) (hb0 : b.ops ≠ [])
    {k : ℕ} {p q : ℕ × ℕ} (hp : p ∈ degreePairs a.links b.links k) (hq : q ∈ degreePairs a.links b.links (k + 1)) :
    (sectorBlock a b p q).rows = dA p.1 * dB p.2 ∧ (sectorBlock a b p q).cols = dA q.1 * dB q.2 ∧
    ∀ x y x' y', y < dB p.2 → y' < dB q.2 →
      (sectorBlock a b p q).e (x * dB p.2 + y) (x' * dB q.2 + y') = tensorEntry a.ops b.ops p q x y x' y' := by
  obtain ⟨p1, p2⟩ := p
  obtain ⟨q1, q2⟩ := q
  obtain ⟨hp1, hp2, hp3⟩ := mem_degreePairs.1 hp
  obtain ⟨hq1, hq2, hq3⟩ := mem_degreePairs.1 hq
  simp only [links] at hp1 hp2 hp3 hq1 hq2 hq3
  have hdm : ∀ {u v w : ℕ}, v < w → (u * w + v) / w = u ∧ (u * w + v) % w = v := by
    intro u v w h
    constructor
    · rw [Nat.mul_comm, Nat.mul_add_div (by omega), Nat.div_eq_of_lt h, Nat.add_zero]
    · rw [Nat.mul_comm, Nat.mul_add_mod, Nat.mod_eq_of_lt h]
  unfold sectorBlock
  simp only
  split_ifs with h1 h2
  · obtain ⟨rfl, rfl⟩ := h1
    have e := ha.1 p1 _ (List.getElem?_eq_getElem (by omega))
    have eb : (b.op p2).cols = dB p2 := dim_eq hb hb0 (by omega)
    rw [op_succ (by omega)]
    refine ⟨by simp [kron, eye, e.1, eb], by simp [kron, eye, e.2, eb], ?_⟩
    intro x y x' y' hy hy'
    simp only [kron, eye, eb, (hdm hy).1, (hdm hy).2, (hdm hy').1, (hdm hy').2, tensorEntry, boundaryEntry]
    rw [List.getElem?_eq_getElem (by omega)]
    simp only [true_and]
    split_ifs <;> first | omega | simp
  · obtain ⟨rfl, rfl⟩ := h2
    have e := hb.1 p2 _ (List.getElem?_eq_getElem (by omega))
    have ea : (a.op p1).cols = dA p1 := dim_eq ha ha0 (by omega)
    rw [op_succ (by omega)]
    refine ⟨by simp [signed, kron, eye, e.1, ea], by simp [signed, kron, eye, e.2, ea], ?_⟩
    intro x y x' y' hy hy'
    simp only [signed, kron, eye, ea, e.1, e.2, (hdm hy).1, (hdm hy).2, (hdm hy').1, (hdm hy').2, tensorEntry,
      boundaryEntry]
    rw [List.getElem?_eq_getElem (l := b.ops) (by omega)]
    simp only [true_and]
    split_ifs <;> first | omega | simp
  · refine ⟨by simp [zeros, dim_eq ha ha0 hp2, dim_eq hb hb0 hp3], by simp [zeros, dim_eq ha ha0 hq2, dim_eq hb hb0 hq3], ?_⟩
    intro x y x' y' hy hy'
    simp only [zeros, tensorEntry]
    rw [if_neg (by omega), if_neg (by omega), add_zero]

theorem tensorOp_spec (ha : IsComplex a.ops dA) (hb : IsComplex b.ops dB) (ha0 : a.ops ≠ []) (hb0 : b.ops ≠ [])
    {k : ℕ} (hk : k < a.links + b.links) :
    ∃ M, tensorOp a b (k + 1) = some M ∧ M.rows = tensorDim a.links b.links dA dB k ∧
      M.cols = tensorDim a.links b.links dA dB (k + 1) ∧
      ∀ p q x y x' y', p ∈ sectors a.links b.links k → q ∈ sectors a.links b.links (k + 1) →
        x < dA p.1 → y < dB p.2 → x' < dA q.1 → y' < dB q.2 →
        M.e (tensorIndex a.links b.links dA dB p x y) (tensorIndex a.links b.links dA dB q x' y') =
          tensorEntry a.ops b.ops p q x y x' y' := by
  unfold tensorOp
  simp only [Nat.add_sub_cancel]
  obtain ⟨bl, e1, -, e3⟩ := fillColumns_spec a b (k := k + 1) (by omega) (degreePairs a.links b.links (k + 1)) 0
    (fun _ h => h) (zeroBlocks a b (degreePairs a.links b.links k) (degreePairs a.links b.links (k + 1))) (by
      intro r p t q hp hq
      simp only [Nat.add_sub_cancel] at hp
      simp only [Nat.zero_add, zeroBlocks, hp, hq])
  simp only [Nat.add_sub_cancel] at e1 e3
  rw [e1]
  simp only [Nat.zero_add] at e3 ⊢
  obtain ⟨M, m1, m2, m3, m4⟩ := block_spec bl
    ((degreePairs a.links b.links k).map fun p => dA p.1 * dB p.2)
    ((degreePairs a.links b.links (k + 1)).map fun p => dA p.1 * dB p.2)
    (by
      rw [← List.length_pos_iff, List.length_map, length_degreePairs]
      omega)
    (by
      rw [← List.length_pos_iff, List.length_map, length_degreePairs]
      omega)
    (by
      intro r c hr hc
      rw [List.length_map] at hr hc
      have hr' := List.getElem?_eq_getElem hr
      have hc' := List.getElem?_eq_getElem hc
      have := sectorBlock_spec ha hb ha0 hb0 (List.getElem_mem hr) (List.getElem_mem hc)
      rw [e3 r _ c _ hr' hc']
      simp only [List.getD_eq_getElem?_getD, List.getElem?_map, hr', hc', Option.map_some, Option.getD_some]
      exact ⟨this.1, this.2.1⟩)
  refine ⟨M, ?_, ?_, ?_, ?_⟩
  · rw [← m1]
    simp only [List.length_map]
  · rw [m2, sum_degreePairs]; rfl
  · rw [m3, sum_degreePairs]; rfl
  · intro p q x y x' y' hp hq hx hy hx' hy'
    rw [← toFinset_degreePairs, List.mem_toFinset] at hp hq
    have ep := getElem?_degreePairs.2 ⟨hp, rfl⟩
    have eq := getElem?_degreePairs.2 ⟨hq, rfl⟩
    have hlt : ∀ {u v w z : ℕ}, u < w → v < z → u * z + v < w * z := by
      intro u v w z h1 h2
      calc u * z + v < u * z + z := by omega
        _ = (u + 1) * z := by ring
        _ ≤ w * z := Nat.mul_le_mul_right _ h1
    have := m4 (blockIndex a.links p.1 p.2) (blockIndex a.links q.1 q.2) (x * dB p.2 + y) (x' * dB q.2 + y')
      (by simpa using (List.getElem?_eq_some_iff.1 ep).1) (by simpa using (List.getElem?_eq_some_iff.1 eq).1)
      (by
        simp only [List.getD_eq_getElem?_getD, List.getElem?_map, ep, Option.map_some, Option.getD_some]
        exact hlt hx hy)
      (by
        simp only [List.getD_eq_getElem?_getD, List.getElem?_map, eq, Option.map_some, Option.getD_some]
        exact hlt hx' hy')
    rw [e3 _ _ _ _ ep eq, (sectorBlock_spec ha hb ha0 hb0 hp hq).2.2 x y x' y' hy hy'] at this
    rw [← this]
    unfold tensorIndex offset
    rw [← List.map_take, ← List.map_take, sum_take_degreePairs _ hp, sum_take_degreePairs _ hq]

theorem sum_tensorDim {M : Type} [AddCommMonoid M] (la lb k : ℕ) (dA dB : ℕ → ℕ) (f : ℕ → M) :
    ∑ i ∈ Finset.range (tensorDim la lb dA dB k), f i =
      ∑ p ∈ sectors la lb k, ∑ x ∈ Finset.range (dA p.1), ∑ y ∈ Finset.range (dB p.2),
        f (tensorIndex la lb dA dB p x y) := by
  have h := sum_blocks ((degreePairs la lb k).map fun p => dA p.1 * dB p.2) f
  rw [sum_degreePairs] at h
  unfold tensorDim
  rw [h]
  refine Finset.sum_nbij' (fun t => (degreePairs la lb k).getD t (0, 0)) (fun p => blockIndex la p.1 p.2) ?_ ?_ ?_ ?_ ?_
  · intro t ht
    rw [Finset.mem_range, List.length_map] at ht
    rw [← toFinset_degreePairs, List.mem_toFinset]
    simp [ht]
  · intro p hp
    rw [← toFinset_degreePairs, List.mem_toFinset] at hp
    rw [Finset.mem_range, List.length_map]
    exact (List.getElem?_eq_some_iff.1 (getElem?_degreePairs.2 ⟨hp, rfl⟩)).1
  · intro t ht
    rw [Finset.mem_range, List.length_map] at ht
    have := (getElem?_degreePairs.1 (List.getElem?_eq_getElem ht)).2
    simp only [List.getD_eq_getElem?_getD, List.getElem?_eq_getElem ht, Option.getD_some]
    exact this.symm
  · intro p hp
    rw [← toFinset_degreePairs, List.mem_toFinset] at hp
    simp [getElem?_degreePairs.2 ⟨hp, rfl⟩]
  · intro t ht
    rw [Finset.mem_range, List.length_map] at ht
    have e := List.getElem?_eq_getElem ht
    have h1 := getElem?_degreePairs.1 e
    simp only [List.getD_eq_getElem?_getD, List.getElem?_map, e, Option.map_some, Option.getD_some]
    rw [sum_range_mul]
    refine Finset.sum_congr rfl fun x _ => Finset.sum_congr rfl fun y _ => ?_
    congr 1
    unfold tensorIndex offset
    rw [← List.map_take, ← sum_take_degreePairs _ h1.1, ← h1.2]

theorem exists_tensorIndex {la lb k : ℕ} {dA dB : ℕ → ℕ} {i : ℕ} (h : i < tensorDim la lb dA dB k) :
    ∃ p ∈ sectors la lb k, ∃ x y, x < dA p.1 ∧ y < dB p.2 ∧ i = tensorIndex la lb dA dB p x y := by
  by_contra hc
  push Not at hc
  have := sum_tensorDim la lb k dA dB (fun j => if j = i then 1 else 0)
  rw [Finset.sum_ite_eq' , if_pos (Finset.mem_range.2 h)] at this
  rw [Finset.sum_eq_zero] at this
  · exact one_ne_zero this
  · intro p hp
    refine Finset.sum_eq_zero fun x hx => Finset.sum_eq_zero fun y hy => ?_
    rw [if_neg]
    exact fun he => hc p hp x y (Finset.mem_range.1 hx) (Finset.mem_range.1 hy) he.symm

theorem tensorIndex_lt {la lb k : ℕ} {p : ℕ × ℕ} (hp : p ∈ sectors la lb k) {x y : ℕ} (hx : x < dA p.1)
    (hy : y < dB p.2) : tensorIndex la lb dA dB p x y < tensorDim la lb dA dB k := by
  have hk : p.1 + p.2 = k := by
    simp only [sectors, Finset.mem_filter, Finset.mem_antidiagonal] at hp
    exact hp.1
  have hlt : x * dB p.2 + y < dA p.1 * dB p.2 := by
    calc x * dB p.2 + y < x * dB p.2 + dB p.2 := by omega
      _ = (x + 1) * dB p.2 := by ring
      _ ≤ dA p.1 * dB p.2 := Nat.mul_le_mul_right _ hx
  have hsub : insert p ((sectors la lb k).filter fun q => p.1 < q.1) ⊆ sectors la lb k := by
    intro q hq
    rcases Finset.mem_insert.1 hq with rfl | hq
    · exact hp
    · exact (Finset.mem_filter.1 hq).1
  have := Finset.sum_le_sum_of_subset (f := fun q => dA q.1 * dB q.2) hsub
  rw [Finset.sum_insert (by simp)] at this
  unfold tensorIndex tensorDim
  rw [hk]
  omega

theorem boundary_sq {c : List (Mat R)} {d : ℕ → ℕ} (hc : IsComplex c d) {k i j : ℕ} (hi : i < d k) (hj : j < d (k + 2)) :
    ∑ x ∈ Finset.range (d (k + 1)), boundaryEntry c k i x * boundaryEntry c (k + 1) x j = 0 := by
  unfold boundaryEntry
  cases h1 : c[k]? with
  | none => simp
  | some A =>
    cases h2 : c[k + 1]? with
    | none => simp
    | some B => exact hc.2 k A B h1 h2 i j hi hj

variable {oA oB : List (Mat R)}

theorem tensorEntry_zero {p q : ℕ × ℕ} {x y x' y' : ℕ} (h1 : ¬ (p.1 + 1 = q.1 ∧ p.2 = q.2))
    (h2 : ¬ (p.1 = q.1 ∧ p.2 + 1 = q.2)) : tensorEntry oA oB p q x y x' y' = 0 := by
  unfold tensorEntry
  rw [if_neg (by tauto), if_neg (by tauto), add_zero]

theorem tensorEntry_left (i j x y x' y' : ℕ) : tensorEntry oA oB (i, j) (i + 1, j) x y x' y' =
    if y = y' then boundaryEntry oA i x x' else 0 := by
  unfold tensorEntry
  rw [if_neg (c := (i = i + 1 ∧ _)) (by omega)]
  simp

theorem tensorEntry_right (i j x y x' y' : ℕ) : tensorEntry oA oB (i, j) (i, j + 1) x y x' y' =
    if x = x' then (-1) ^ i * boundaryEntry oB j y y' else 0 := by
  unfold tensorEntry
  rw [if_neg (c := (i + 1 = i ∧ _)) (by omega)]
  simp

theorem tensor_mid {la lb k s1 s2 : ℕ} (hs : s1 + s2 = k) (h1 : s1 + 1 ≤ la) (h2 : s2 + 1 ≤ lb) {x y x' y' : ℕ}
    (hx : x < dA s1) (hy : y < dB s2) (hx' : x' < dA (s1 + 1)) (hy' : y' < dB (s2 + 1)) :
    ∑ t ∈ sectors la lb (k + 1), ∑ u ∈ Finset.range (dA t.1), ∑ v ∈ Finset.range (dB t.2),
      tensorEntry oA oB (s1, s2) t x y u v * tensorEntry oA oB t (s1 + 1, s2 + 1) u v x' y' =
      boundaryEntry oA s1 x x' * ((-1) ^ (s1 + 1) * boundaryEntry oB s2 y y') +
        (-1) ^ s1 * boundaryEntry oB s2 y y' * boundaryEntry oA s1 x x' := by
  rw [Finset.sum_eq_add (s1 + 1, s2) (s1, s2 + 1) (by simp)]
  · simp only [tensorEntry_left, tensorEntry_right]
    have t1 : ∑ u ∈ Finset.range (dA (s1 + 1)), ∑ v ∈ Finset.range (dB s2),
        (if y = v then boundaryEntry oA s1 x u else 0) *
          (if u = x' then (-1) ^ (s1 + 1) * boundaryEntry oB s2 v y' else 0) =
        boundaryEntry oA s1 x x' * ((-1) ^ (s1 + 1) * boundaryEntry oB s2 y y') := by
      rw [Finset.sum_eq_single x', Finset.sum_eq_single y]
      · simp
      · intro v _ hv
        rw [if_neg (Ne.symm hv), zero_mul]
      · intro h
        exact absurd (Finset.mem_range.2 hy) h
      · intro u _ hu
        refine Finset.sum_eq_zero fun v _ => ?_
        rw [if_neg hu, mul_zero]
      · intro h
        exact absurd (Finset.mem_range.2 hx') h
    have t2 : ∑ u ∈ Finset.range (dA s1), ∑ v ∈ Finset.range (dB (s2 + 1)),
        (if x = u then (-1) ^ s1 * boundaryEntry oB s2 y v else 0) *
          (if v = y' then boundaryEntry oA s1 u x' else 0) =
        (-1) ^ s1 * boundaryEntry oB s2 y y' * boundaryEntry oA s1 x x' := by
      rw [Finset.sum_eq_single x, Finset.sum_eq_single y']
      · simp
      · intro v _ hv
        rw [if_neg hv, mul_zero]
      · intro h
        exact absurd (Finset.mem_range.2 hy') h
      · intro u _ hu
        refine Finset.sum_eq_zero fun v _ => ?_
        rw [if_neg (Ne.symm hu), zero_mul]
      · intro h
        exact absurd (Finset.mem_range.2 hx) h
    rw [t1, t2]
  · intro t _ ht
    refine Finset.sum_eq_zero fun u _ => Finset.sum_eq_zero fun v _ => ?_
    rw [tensorEntry_zero, zero_mul]
    · exact fun h => ht.1 (Prod.ext h.1.symm h.2.symm)
    · exact fun h => ht.2 (Prod.ext h.1.symm h.2.symm)
  · intro h
    exact absurd (by simp [sectors]; omega) h
  · intro h
    exact absurd (by simp [sectors]; omega) h

theorem tensor_sq (ha : IsComplex oA dA) (hb : IsComplex oB dB)
    (hcomm : ∀ k l i j i' j', i < dA k → j < dA (k + 1) → i' < dB l → j' < dB (l + 1) →
      Commute (boundaryEntry oA k i j) (boundaryEntry oB l i' j'))
    {la lb k : ℕ} {s q : ℕ × ℕ} (hs : s ∈ sectors la lb k) (hq : q ∈ sectors la lb (k + 2)) {x y x' y' : ℕ}
    (hx : x < dA s.1) (hy : y < dB s.2) (hx' : x' < dA q.1) (hy' : y' < dB q.2) :
    ∑ t ∈ sectors la lb (k + 1), ∑ u ∈ Finset.range (dA t.1), ∑ v ∈ Finset.range (dB t.2),
      tensorEntry oA oB s t x y u v * tensorEntry oA oB t q u v x' y' = 0 := by
  obtain ⟨s1, s2⟩ := s
  obtain ⟨q1, q2⟩ := q
  simp only [sectors, Finset.mem_filter, Finset.mem_antidiagonal] at hs hq
  simp only at hx hy hx' hy'
  have hz : ∀ t : ℕ × ℕ, (¬ (s1 + 1 = t.1 ∧ s2 = t.2) ∧ ¬ (s1 = t.1 ∧ s2 + 1 = t.2)) ∨
      (¬ (t.1 + 1 = q1 ∧ t.2 = q2) ∧ ¬ (t.1 = q1 ∧ t.2 + 1 = q2)) →
      ∑ u ∈ Finset.range (dA t.1), ∑ v ∈ Finset.range (dB t.2),
        tensorEntry oA oB (s1, s2) t x y u v * tensorEntry oA oB t (q1, q2) u v x' y' = 0 := by
    intro t ht
    refine Finset.sum_eq_zero fun u _ => Finset.sum_eq_zero fun v _ => ?_
    rcases ht with ht | ht
    · rw [tensorEntry_zero ht.1 ht.2, zero_mul]
    · rw [tensorEntry_zero (p := t) ht.1 ht.2, mul_zero]
  by_cases c1 : s1 + 2 = q1
  · have c2 : s2 = q2 := by omega
    subst c1 c2
    rw [Finset.sum_eq_single (s1 + 1, s2)]
    · simp only [tensorEntry_left]
      by_cases hyy : y = y'
      · subst hyy
        refine Eq.trans (Finset.sum_congr rfl fun u _ => ?_) (boundary_sq ha hx hx')
        rw [Finset.sum_eq_single y]
        · simp
        · intro v _ hv
          rw [if_neg (Ne.symm hv), zero_mul]
        · intro h
          exact absurd (Finset.mem_range.2 hy) h
      · refine Finset.sum_eq_zero fun u _ => Finset.sum_eq_zero fun v _ => ?_
        split_ifs <;> first | simp | (exfalso; omega)
    · intro t _ ht
      apply hz
      have : ¬ (t.1 = s1 + 1 ∧ t.2 = s2) := fun h => ht (Prod.ext h.1 h.2)
      omega
    · intro h
      exact absurd (by simp [sectors]; omega) h
  by_cases c2 : s2 + 2 = q2
  · have c3 : s1 = q1 := by omega
    subst c2 c3
    rw [Finset.sum_eq_single (s1, s2 + 1)]
    · simp only [tensorEntry_right]
      rw [Finset.sum_eq_single x]
      · by_cases hxx : x = x'
        · subst hxx
          simp only [if_true]
          have : ∀ v, (-1) ^ s1 * boundaryEntry oB s2 y v * ((-1) ^ s1 * boundaryEntry oB (s2 + 1) v y') =
              boundaryEntry oB s2 y v * boundaryEntry oB (s2 + 1) v y' := by
            intro v
            rcases neg_one_pow_eq_or R s1 with h | h <;> rw [h] <;> simp
          simp only [this]
          exact boundary_sq hb hy hy'
        · simp [hxx]
      · intro u _ hu
        refine Finset.sum_eq_zero fun v _ => ?_
        rw [if_neg (Ne.symm hu), zero_mul]
      · intro h
        exact absurd (Finset.mem_range.2 hx) h
    · intro t _ ht
      apply hz
      have : ¬ (t.1 = s1 ∧ t.2 = s2 + 1) := fun h => ht (Prod.ext h.1 h.2)
      omega
    · intro h
      exact absurd (by simp [sectors]; omega) h
  by_cases c3 : s1 + 1 = q1 ∧ s2 + 1 = q2
  · obtain ⟨rfl, rfl⟩ := c3
    rw [tensor_mid hs.1 (by omega) (by omega) hx hy hx' hy', mul_assoc, ← (hcomm s1 s2 x x' y y' hx hx' hy hy').eq, pow_succ]
    rcases neg_one_pow_eq_or R s1 with h | h <;> rw [h] <;> simp
  · refine Finset.sum_eq_zero fun t _ => hz t ?_
    omega

theorem tensorProduct_spec (ha : IsComplex a.ops dA) (hb : IsComplex b.ops dB) (ha0 : a.ops ≠ []) (hb0 : b.ops ≠ []) :
    ∃ c, tensorProduct a b = some c ∧ c.ops.length = a.ops.length + b.ops.length ∧
      (∀ k M, c.ops[k]? = some M → M.rows = tensorDim a.ops.length b.ops.length dA dB k ∧
        M.cols = tensorDim a.ops.length b.ops.length dA dB (k + 1)) ∧
      ∀ k p q x y x' y', p ∈ sectors a.ops.length b.ops.length k → q ∈ sectors a.ops.length b.ops.length (k + 1) →
        x < dA p.1 → y < dB p.2 → x' < dA q.1 → y' < dB q.2 →
        boundaryEntry c.ops k (tensorIndex a.ops.length b.ops.length dA dB p x y)
            (tensorIndex a.ops.length b.ops.length dA dB q x' y') =
          tensorEntry a.ops b.ops p q x y x' y' := by
  have h := fun k (hk : k < a.links + b.links) => tensorOp_spec ha hb ha0 hb0 hk
  haveI : Nonempty (Mat R) := ⟨zeros 0 0⟩
  choose! G hG using h
  have hl : allSome ((List.range (a.links + b.links)).map fun k => tensorOp a b (k + 1)) =
      some ((List.range (a.links + b.links)).map G) :=
    allSome_map _ _ _ fun k hk => (hG k (List.mem_range.1 hk)).1
  refine ⟨⟨(List.range (a.links + b.links)).map G⟩, ?_, by simp [links], ?_, ?_⟩
  · unfold tensorProduct
    rw [if_neg (by tauto), if_neg (by tauto), hl]
  · intro k M hk
    simp only [List.getElem?_map, Option.map_eq_some_iff] at hk
    obtain ⟨k', hk', rfl⟩ := hk
    rw [List.getElem?_eq_some_iff] at hk'
    obtain ⟨h1, h2⟩ := hk'
    rw [List.getElem_range] at h2
    subst h2
    have := hG k (by simpa using h1)
    exact ⟨this.2.1, this.2.2.1⟩
  · intro k p q x y x' y' hp hq hx hy hx' hy'
    have hk : k < a.links + b.links := by
      simp only [sectors, Finset.mem_filter, Finset.mem_antidiagonal] at hq
      unfold links
      omega
    unfold boundaryEntry
    rw [List.getElem?_map, List.getElem?_range hk]
    exact (hG k hk).2.2.2 p q x y x' y' hp hq hx hy hx' hy'

theorem tensorProduct_complex (ha : IsComplex a.ops dA) (hb : IsComplex b.ops dB) (ha0 : a.ops ≠ []) (hb0 : b.ops ≠ [])
    (hcomm : ∀ k l i j i' j', i < dA k → j < dA (k + 1) → i' < dB l → j' < dB (l + 1) →
      Commute (boundaryEntry a.ops k i j) (boundaryEntry b.ops l i' j'))
    {c : Chain R} (hc : tensorProduct a b = some c) :
    IsComplex c.ops (tensorDim a.ops.length b.ops.length dA dB) := by
  obtain ⟨c', h1, h2, h3, h4⟩ := tensorProduct_spec ha hb ha0 hb0
  rw [hc] at h1
  obtain rfl := Option.some.inj h1
  refine ⟨h3, ?_⟩
  intro k A B hA hB i j hi hj
  obtain ⟨s, hs, x, y, hx, hy, rfl⟩ := exists_tensorIndex hi
  obtain ⟨q, hq, x', y', hx', hy', rfl⟩ := exists_tensorIndex hj
  rw [sum_tensorDim]
  refine Eq.trans ?_ (tensor_sq ha hb hcomm hs hq hx hy hx' hy')
  refine Finset.sum_congr rfl fun t ht => Finset.sum_congr rfl fun u hu => Finset.sum_congr rfl fun v hv => ?_
  have e1 := h4 k s t x y u v hs ht hx hy (Finset.mem_range.1 hu) (Finset.mem_range.1 hv)
  have e2 := h4 (k + 1) t q u v x' y' ht hq (Finset.mem_range.1 hu) (Finset.mem_range.1 hv) hx' hy'
  rw [← e1, ← e2]
  unfold boundaryEntry
  rw [hA, hB]

end Chain

end QLDPC
