import Verif.Model.Chain
import Mathlib.Algebra.BigOperators.Intervals
import Mathlib.Algebra.BigOperators.Ring.Finset
import Mathlib.Tactic.Ring
import Mathlib.Tactic.Linarith
import Mathlib.Algebra.Order.BigOperators.Group.Finset

/-! # Lemmas about block matrices and tensor products of chain complexes -/

namespace QLDPC

open Mat

variable {R : Type}

/-- start of block `t` -/
def offset (sizes : List ℕ) (t : ℕ) : ℕ := (sizes.take t).sum

theorem offset_zero (s : List ℕ) : offset s 0 = 0 := by simp [offset]

theorem offset_cons (x : ℕ) (s : List ℕ) (t : ℕ) : offset (x :: s) (t + 1) = x + offset s t := by simp [offset]

theorem sum_blocks {M : Type} [AddCommMonoid M] (s : List ℕ) (f : ℕ → M) :
    ∑ k ∈ Finset.range s.sum, f k =
      ∑ t ∈ Finset.range s.length, ∑ x ∈ Finset.range (s.getD t 0), f (offset s t + x) := by
  induction s generalizing f with
  | nil => simp
  | cons a s ih =>
    rw [List.sum_cons, Finset.sum_range_add, ih, List.length_cons, Finset.sum_range_succ']
    rw [add_comm]
    congr 1
    · refine Finset.sum_congr rfl fun t _ => Finset.sum_congr (by simp) fun x _ => ?_
      rw [offset_cons, Nat.add_assoc]
    · simp [offset_zero]

theorem exists_block (s : List ℕ) {k : ℕ} (h : k < s.sum) :
    ∃ t x, t < s.length ∧ x < s.getD t 0 ∧ k = offset s t + x := by
  induction s generalizing k with
  | nil => simp at h
  | cons a s ih =>
    by_cases hk : k < a
    · exact ⟨0, k, by simp, by simpa using hk, by simp [offset_zero]⟩
    · obtain ⟨t, x, h1, h2, h3⟩ := ih (k := k - a) (by simp at h; omega)
      exact ⟨t + 1, x, by simpa using h1, by simpa using h2, by rw [offset_cons]; omega⟩

theorem sum_range_mul {M : Type} [AddCommMonoid M] (p q : ℕ) (f : ℕ → M) :
    ∑ k ∈ Finset.range (p * q), f k = ∑ x ∈ Finset.range p, ∑ y ∈ Finset.range q, f (x * q + y) := by
  induction p with
  | zero => simp
  | succ p ih => rw [Nat.succ_mul, Finset.sum_range_add, ih, Finset.sum_range_succ]

theorem hcatAll_spec (l : List (Mat R)) (h0 : l ≠ []) (r : ℕ) (hr : ∀ a ∈ l, a.rows = r) :
    ∃ M, hcatAll l = some M ∧ M.rows = r ∧ M.cols = (l.map Mat.cols).sum ∧
      ∀ t a, l[t]? = some a → ∀ i j, j < a.cols → M.e i (offset (l.map Mat.cols) t + j) = a.e i j := by
  induction l with
  | nil => exact absurd rfl h0
  | cons a l ih =>
    cases l with
    | nil =>
      refine ⟨a, rfl, hr a (by simp), by simp, fun t b ht i j _ => ?_⟩
      cases t with
      | zero => simp at ht; subst ht; simp [offset_zero]
      | succ t => simp at ht
    | cons b l =>
      obtain ⟨M, h1, h2, h3, h4⟩ := ih (by simp) fun c hc => hr c (List.mem_cons_of_mem _ hc)
      refine ⟨hcat a M, ?_, hr a (by simp), ?_, ?_⟩
      · show (match hcatAll (b :: l) with
          | none => none
          | some b => if a.rows = b.rows then some (hcat a b) else none) = _
        rw [h1]
        simp only
        rw [if_pos (by rw [h2, hr a (by simp)])]
      · show a.cols + M.cols = _
        rw [h3]; simp
      · intro t c ht i j hj
        cases t with
        | zero =>
          simp at ht; subst ht
          rw [offset_zero]
          simp [hcat, hj]
        | succ t =>
          rw [List.map_cons, offset_cons]
          simp only [hcat]
          rw [if_neg (by omega), Nat.add_assoc, Nat.add_sub_cancel_left]
          exact h4 t c (by simpa using ht) i j hj

theorem vcatAll_spec (l : List (Mat R)) (h0 : l ≠ []) (r : ℕ) (hr : ∀ a ∈ l, a.cols = r) :
    ∃ M, vcatAll l = some M ∧ M.cols = r ∧ M.rows = (l.map Mat.rows).sum ∧
      ∀ t a, l[t]? = some a → ∀ i j, i < a.rows → M.e (offset (l.map Mat.rows) t + i) j = a.e i j := by
  induction l with
  | nil => exact absurd rfl h0
  | cons a l ih =>
    cases l with
    | nil =>
      refine ⟨a, rfl, hr a (by simp), by simp, fun t b ht i j _ => ?_⟩
      cases t with
      | zero => simp at ht; subst ht; simp [offset_zero]
      | succ t => simp at ht
    | cons b l =>
      obtain ⟨M, h1, h2, h3, h4⟩ := ih (by simp) fun c hc => hr c (List.mem_cons_of_mem _ hc)
      refine ⟨vcat a M, ?_, hr a (by simp), ?_, ?_⟩
      · show (match vcatAll (b :: l) with
          | none => none
          | some b => if a.cols = b.cols then some (vcat a b) else none) = _
        rw [h1]
        simp only
        rw [if_pos (by rw [h2, hr a (by simp)])]
      · show a.rows + M.rows = _
        rw [h3]; simp
      · intro t c ht i j hj
        cases t with
        | zero =>
          simp at ht; subst ht
          rw [offset_zero]
          simp [vcat, hj]
        | succ t =>
          rw [List.map_cons, offset_cons]
          simp only [vcat]
          rw [if_neg (by omega), Nat.add_assoc, Nat.add_sub_cancel_left]
          exact h4 t c (by simpa using ht) i j hj

theorem allSome_map {α β : Type} (f : α → Option β) (g : α → β) (l : List α) (h : ∀ a ∈ l, f a = some (g a)) :
    allSome (l.map f) = some (l.map g) := by
  induction l with
  | nil => rfl
  | cons a l ih =>
    rw [List.map_cons, h a (by simp)]
    simp only [allSome]
    rw [ih fun b hb => h b (List.mem_cons_of_mem _ hb)]
    rfl

/-- `np.block` of blocks with shapes `hs r × ws c` -/
theorem block_spec (B : ℕ → ℕ → Mat R) (hs ws : List ℕ) (h1 : hs ≠ []) (h2 : ws ≠ [])
    (hB : ∀ r c, r < hs.length → c < ws.length → (B r c).rows = hs.getD r 0 ∧ (B r c).cols = ws.getD c 0) :
    ∃ M, Mat.block ((List.range hs.length).map fun r => (List.range ws.length).map fun c => B r c) = some M ∧
      M.rows = hs.sum ∧ M.cols = ws.sum ∧
      ∀ r c i j, r < hs.length → c < ws.length → i < hs.getD r 0 → j < ws.getD c 0 →
        M.e (offset hs r + i) (offset ws c + j) = (B r c).e i j := by
  have hw : ∀ r, r < hs.length → ((List.range ws.length).map fun c => B r c).map Mat.cols = ws := by
    intro r hr
    apply List.ext_getElem (by simp)
    intro c hc _
    have hc' : c < ws.length := by simpa using hc
    simp [(hB r c hr hc').2, hc']
  have hrow : ∀ r, r < hs.length → ∃ M, hcatAll ((List.range ws.length).map fun c => B r c) = some M ∧
      M.rows = hs.getD r 0 ∧ M.cols = ws.sum ∧ ∀ c i j, c < ws.length → j < ws.getD c 0 →
        M.e i (offset ws c + j) = (B r c).e i j := by
    intro r hr
    obtain ⟨M, a1, a2, a3, a4⟩ := hcatAll_spec ((List.range ws.length).map fun c => B r c)
      (by simpa using h2) (hs.getD r 0) (fun a ha => by
        obtain ⟨c, hc, rfl⟩ := List.mem_map.1 ha
        exact (hB r c hr (List.mem_range.1 hc)).1)
    rw [hw r hr] at a3 a4
    refine ⟨M, a1, a2, a3, fun c i j hc hj => ?_⟩
    refine a4 c (B r c) (by simp [hc]) i j ?_
    rw [(hB r c hr hc).2]; exact hj
  haveI : Nonempty (Mat R) := ⟨B 0 0⟩
  choose! G hG using hrow
  have hmap : allSome (((List.range hs.length).map fun r => (List.range ws.length).map fun c => B r c).map hcatAll) =
      some ((List.range hs.length).map G) := by
    rw [List.map_map]
    exact allSome_map _ _ _ fun r hr => (hG r (List.mem_range.1 hr)).1
  have hh : ((List.range hs.length).map G).map Mat.rows = hs := by
    apply List.ext_getElem (by simp)
    intro r hr _
    have hr' : r < hs.length := by simpa using hr
    simp [(hG r hr').2.1, hr']
  obtain ⟨M, a1, a2, a3, a4⟩ := vcatAll_spec ((List.range hs.length).map G) (by simpa using h1) ws.sum
    (fun a ha => by
      obtain ⟨r, hr, rfl⟩ := List.mem_map.1 ha
      exact (hG r (List.mem_range.1 hr)).2.2.1)
  rw [hh] at a3 a4
  refine ⟨M, ?_, a3, a2, fun r c i j hr hc hi hj => ?_⟩
  · unfold Mat.block
    rw [hmap]
    exact a1
  · rw [a4 r (G r) (by simp [hr]) i _ (by rw [(hG r hr).2.1]; exact hi)]
    exact (hG r hr).2.2.2 c i j hc hj

namespace Chain

theorem length_degreePairs (la lb d : ℕ) : (degreePairs la lb d).length = min la d + 1 - (d - lb) := by
  simp [degreePairs]

theorem mem_degreePairs {la lb d : ℕ} {p : ℕ × ℕ} :
    p ∈ degreePairs la lb d ↔ p.1 + p.2 = d ∧ p.1 ≤ la ∧ p.2 ≤ lb := by
  obtain ⟨x, y⟩ := p
  simp only [degreePairs, List.mem_map, List.mem_range, Prod.mk.injEq]
  constructor
  · rintro ⟨t, ht, rfl, rfl⟩
    omega
  · rintro ⟨h1, h2, h3⟩
    exact ⟨min la d - x, by omega, by omega, by omega⟩

theorem getElem?_degreePairs {la lb d r : ℕ} {p : ℕ × ℕ} :
    (degreePairs la lb d)[r]? = some p ↔ p ∈ degreePairs la lb d ∧ r = blockIndex la p.1 p.2 := by
  obtain ⟨x, y⟩ := p
  rw [mem_degreePairs]
  simp only [degreePairs, blockIndex, List.getElem?_map, Option.map_eq_some_iff, List.getElem?_eq_some_iff,
    List.getElem_range, List.length_range, Prod.mk.injEq]
  constructor
  · rintro ⟨t, ⟨ht, rfl⟩, rfl, rfl⟩
    omega
  · rintro ⟨⟨h1, h2, h3⟩, h4⟩
    exact ⟨r, ⟨by omega, rfl⟩, by omega, by omega⟩

theorem nodup_degreePairs (la lb d : ℕ) : (degreePairs la lb d).Nodup := by
  rw [List.nodup_iff_getElem?_ne_getElem?]
  intro i j hij hj he
  have hi := List.getElem?_eq_getElem (show i < (degreePairs la lb d).length by omega)
  have hj' := List.getElem?_eq_getElem hj
  have h1 := (getElem?_degreePairs.1 hi).2
  have h2 := (getElem?_degreePairs.1 hj').2
  rw [hi, hj'] at he
  rw [← Option.some.inj he] at h2
  omega

variable [Ring R]

/-- the block of the boundary operator from sector `q` to sector `p` -/
def sectorBlock (a b : Chain R) (p q : ℕ × ℕ) : Mat R :=
  if p.1 + 1 = q.1 ∧ p.2 = q.2 then Mat.kron (a.op q.1) (Mat.eye (b.op q.2).cols)
  else if p.1 = q.1 ∧ p.2 + 1 = q.2 then (Mat.kron (Mat.eye (a.op q.1).cols) (b.op q.2)).signed q.1
  else Mat.zeros (a.dim p.1 * b.dim p.2) (a.dim q.1 * b.dim q.2)

theorem fillColumn_spec (a b : Chain R) {k col : ℕ} {q : ℕ × ℕ} (hk : 0 < k)
    (hq : q ∈ degreePairs a.links b.links k) (blocks : ℕ → ℕ → Mat R)
    (hz : ∀ r p, (degreePairs a.links b.links (k - 1))[r]? = some p →
      blocks r col = Mat.zeros (a.dim p.1 * b.dim p.2) (a.dim q.1 * b.dim q.2)) :
    ∃ bl, fillColumn a b (degreePairs a.links b.links (k - 1)).length col q blocks = some bl ∧
      (∀ r c, c ≠ col → bl r c = blocks r c) ∧
      ∀ r p, (degreePairs a.links b.links (k - 1))[r]? = some p → bl r col = sectorBlock a b p q := by
  obtain ⟨x, y⟩ := q
  obtain ⟨h1, h2, h3⟩ := mem_degreePairs.1 hq
  simp only at h1 h2 h3
  have hrange : ∀ p, p ∈ degreePairs a.links b.links (k - 1) →
      blockIndex a.links p.1 p.2 < (degreePairs a.links b.links (k - 1)).length := by
    intro p hp
    have := getElem?_degreePairs.2 ⟨hp, rfl⟩
    exact (List.getElem?_eq_some_iff.1 this).1
  have hidx : ∀ r p p', (degreePairs a.links b.links (k - 1))[r]? = some p → p' ∈ degreePairs a.links b.links (k - 1) →
      (r = blockIndex a.links p'.1 p'.2 ↔ p = p') := by
    intro r p p' hr hp'
    constructor
    · intro h
      have := getElem?_degreePairs.2 ⟨hp', h⟩
      rw [hr] at this
      exact Option.some.inj this
    · rintro rfl
      exact (getElem?_degreePairs.1 hr).2
  have hstep1 : ∃ bl, (if x ≠ 0 then
      setBlock (degreePairs a.links b.links (k - 1)).length blocks (blockIndex a.links (x - 1) y) col
        (Mat.kron (a.op x) (Mat.eye (b.op y).cols)) else some blocks) = some bl ∧
      (∀ r c, c ≠ col → bl r c = blocks r c) ∧
      ∀ r p, (degreePairs a.links b.links (k - 1))[r]? = some p → bl r col =
        if p.1 + 1 = x ∧ p.2 = y then Mat.kron (a.op x) (Mat.eye (b.op y).cols)
        else Mat.zeros (a.dim p.1 * b.dim p.2) (a.dim x * b.dim y) := by
    by_cases hx : x = 0
    · refine ⟨blocks, by simp [hx], fun _ _ _ => rfl, fun r p hp => ?_⟩
      rw [hz r p hp, if_neg (by omega)]
    · have hm : (x - 1, y) ∈ degreePairs a.links b.links (k - 1) := mem_degreePairs.2 ⟨by simp; omega, by simp; omega, h3⟩
      refine ⟨fun r c => if r = blockIndex a.links (x - 1) y ∧ c = col then
        Mat.kron (a.op x) (Mat.eye (b.op y).cols) else blocks r c, ?_, ?_, ?_⟩
      · rw [if_pos hx, setBlock, if_pos (hrange _ hm)]
      · intro r c hc
        simp [hc]
      · intro r p hp
        have := hidx r p _ hp hm
        simp only at this
        simp only [this, and_true, hz r p hp]
        congr 1
        rw [Prod.ext_iff]
        simp only [eq_iff_iff]
        omega
  obtain ⟨b1, e1, e2, e3⟩ := hstep1
  by_cases hy : y = 0
  · refine ⟨b1, ?_, e2, fun r p hp => ?_⟩
    · unfold fillColumn
      simp only
      rw [e1]
      simp [hy]
    · rw [e3 r p hp, sectorBlock]
      congr 1
      rw [if_neg]
      simp only
      omega
  · have hm : (x, y - 1) ∈ degreePairs a.links b.links (k - 1) := mem_degreePairs.2 ⟨by simp; omega, h2, by simp; omega⟩
    refine ⟨fun r c => if r = blockIndex a.links x (y - 1) ∧ c = col then
      (Mat.kron (Mat.eye (a.op x).cols) (b.op y)).signed x else b1 r c, ?_, ?_, ?_⟩
    · unfold fillColumn
      simp only
      rw [e1]
      simp only
      rw [if_pos hy, setBlock, if_pos (hrange _ hm)]
    · intro r c hc
      simp only [hc, and_false, if_false]
      exact e2 r c hc
    · intro r p hp
      have := hidx r p _ hp hm
      simp only at this
      simp only [this, and_true, e3 r p hp, sectorBlock, Prod.ext_iff]
      split_ifs <;> first | rfl | omega

theorem fillColumns_spec (a b : Chain R) {k : ℕ} (hk : 0 < k) (l : List (ℕ × ℕ)) (col : ℕ)
    (hl : ∀ q ∈ l, q ∈ degreePairs a.links b.links k) (blocks : ℕ → ℕ → Mat R)
    (hz : ∀ r p t q, (degreePairs a.links b.links (k - 1))[r]? = some p → l[t]? = some q →
      blocks r (col + t) = Mat.zeros (a.dim p.1 * b.dim p.2) (a.dim q.1 * b.dim q.2)) :
    ∃ bl, fillColumns a b (degreePairs a.links b.links (k - 1)).length col l blocks = some bl ∧
      (∀ r c, c < col → bl r c = blocks r c) ∧
      ∀ r p t q, (degreePairs a.links b.links (k - 1))[r]? = some p → l[t]? = some q →
        bl r (col + t) = sectorBlock a b p q := by
  induction l generalizing col blocks with
  | nil => exact ⟨blocks, rfl, fun _ _ _ => rfl, fun r p t q _ h => by simp at h⟩
  | cons q l ih =>
    obtain ⟨b1, f1, f2, f3⟩ := fillColumn_spec (col := col) a b hk (hl q (by simp)) blocks
      (fun r p hp => hz r p 0 q hp (by simp))
    obtain ⟨b2, g1, g2, g3⟩ := ih (col + 1) (fun q' hq' => hl q' (List.mem_cons_of_mem _ hq')) b1
      (fun r p t q' hp hq' => by
        rw [f2 _ _ (by omega), Nat.add_assoc, Nat.add_comm 1 t]
        exact hz r p (t + 1) q' hp (by simpa using hq'))
    refine ⟨b2, ?_, ?_, ?_⟩
    · unfold fillColumns
      rw [f1]
      exact g1
    · intro r c hc
      rw [g2 r c (by omega), f2 r c (by omega)]
    · intro r p t q' hp hq'
      cases t with
      | zero =>
        simp only [List.getElem?_cons_zero, Option.some.injEq] at hq'
        subst hq'
        rw [Nat.add_zero, g2 r col (by omega)]
        exact f3 r p hp
      | succ t =>
        have := g3 r p t q' hp (by simpa using hq')
        rwa [Nat.add_assoc, Nat.add_comm 1 t] at this

end Chain

end QLDPC
