import Verif.Model.GeneralizedSurface
import Verif.Lemmas.LatticeParameters
import Verif.Lemmas.ChainTensor
import Verif.Props.Chain
import Verif.Props.ProductFamilies

/-!
# The chain complexes built by `GeneralizedSurfaceCode`
-/

namespace QLDPC

open Spec Chain

variable {F : Type} [Field F] [DecidableEq F] {n : ℕ}

/-- `f` numbers the elements of a type from `0` to `m - 1`. -/
structure Numbers {I : Type} [Fintype I] (f : I → ℕ) (m : ℕ) : Prop where
  lt : ∀ i, f i < m
  surj : ∀ k, k < m → ∃ i, f i = k
  card : Fintype.card I = m

namespace Numbers

variable {I : Type} [Fintype I] {f : I → ℕ} {m : ℕ}

theorem bijective (h : Numbers f m) : Function.Bijective fun i => (⟨f i, h.lt i⟩ : Fin m) := by
  rw [Fintype.bijective_iff_surjective_and_card]
  refine ⟨fun k => ?_, by rw [h.card, Fintype.card_fin]⟩
  obtain ⟨i, hi⟩ := h.surj k k.isLt
  exact ⟨i, Fin.ext hi⟩

/-- The numbering as an equivalence. -/
noncomputable def equiv (h : Numbers f m) : I ≃ Fin m := Equiv.ofBijective _ h.bijective

theorem equiv_val (h : Numbers f m) (i : I) : (h.equiv i).val = f i := rfl

theorem injective (h : Numbers f m) {i j : I} (e : f i = f j) : i = j := h.bijective.1 (Fin.ext e)

end Numbers

/-- The first two boundary operators are the matrices of `A`. -/
structure IsRep (ops : List (Mat F)) (d : ℕ → ℕ) (A : Cx F) (f0 : A.I0 → ℕ) (f1 : A.I1 → ℕ) (f2 : A.I2 → ℕ) : Prop where
  n0 : Numbers f0 (d 0)
  n1 : Numbers f1 (d 1)
  n2 : Numbers f2 (d 2)
  e1 : ∀ i j, boundaryEntry ops 0 (f0 i) (f1 j) = A.D1 i j
  e2 : ∀ j k, boundaryEntry ops 1 (f1 j) (f2 k) = A.D2 j k

/-- The dimensions of a complex with one matrix. -/
def oneDim (M : Mat F) (k : ℕ) : ℕ := if k = 0 then M.rows else if k = 1 then M.cols else 0

theorem isComplex_one (M : Mat F) : IsComplex [M] (oneDim M) := by
  constructor
  · intro k A hA
    cases k with
    | zero => cases hA; exact ⟨rfl, rfl⟩
    | succ k => simp at hA
  · intro k A B _ hB
    simp at hB

theorem mkChain_some {ops : List (Mat F)} {d : ℕ → ℕ} (h : IsComplex ops d) : mkChain ops = some ⟨ops⟩ := by
  rw [mkChain, if_pos ((Props.C50_validate ⟨ops⟩).2 ⟨d, h⟩)]

theorem isComplex_take {ops : List (Mat F)} {d : ℕ → ℕ} (h : IsComplex ops d) (t : ℕ) : IsComplex (ops.take t) d := by
  have key : ∀ (k : ℕ) A, (ops.take t)[k]? = some A → ops[k]? = some A := by
    intro k A hA
    rw [List.getElem?_take] at hA
    split_ifs at hA
    exact hA
  exact ⟨fun k A hA => h.1 k A (key k A hA), fun k A B hA hB => h.2 k A B (key _ _ hA) (key _ _ hB)⟩

theorem sectors_deg0 (la : ℕ) : sectors la 1 0 = {(0, 0)} := by
  ext ⟨a, b⟩
  simp only [sectors, Finset.mem_filter, Finset.mem_antidiagonal, Finset.mem_singleton, Prod.mk.injEq]
  omega

theorem sectors_deg1 {la : ℕ} (h : 1 ≤ la) : sectors la 1 1 = {(1, 0), (0, 1)} := by
  ext ⟨a, b⟩
  simp only [sectors, Finset.mem_filter, Finset.mem_antidiagonal, Finset.mem_singleton, Prod.mk.injEq, Finset.mem_insert]
  omega

theorem mem_sectors_deg2 {la : ℕ} (p : ℕ × ℕ) : p ∈ sectors la 1 2 ↔ (p = (2, 0) ∧ 2 ≤ la) ∨ (p = (1, 1) ∧ 1 ≤ la) := by
  obtain ⟨a, b⟩ := p
  simp only [sectors, Finset.mem_filter, Finset.mem_antidiagonal, Prod.mk.injEq]
  omega

theorem tensorDim_deg2 {la : ℕ} (dA dB : ℕ → ℕ) (h : (la = 1 ∧ dA 2 = 0) ∨ la = 2) :
    tensorDim la 1 dA dB 2 = dA 2 * dB 0 + dA 1 * dB 1 := by
  have key : (sectors la 1 2 = {(1, 1)} ∧ dA 2 = 0) ∨ sectors la 1 2 = {(2, 0), (1, 1)} := by
    rcases h with ⟨rfl, h⟩ | rfl
    · left
      refine ⟨?_, h⟩
      ext p
      rw [mem_sectors_deg2]; simp
    · right
      ext p
      rw [mem_sectors_deg2]; simp
  unfold tensorDim
  rcases key with ⟨h1, h2⟩ | h1
  · rw [h1, Finset.sum_singleton, h2]; simp
  · rw [h1, Finset.sum_insert (by decide), Finset.sum_singleton]

/-- One pass of the loop multiplies by the link. -/
theorem tensor_step {c : Chain F} {d : ℕ → ℕ} {A : Cx F} {f0 : A.I0 → ℕ} {f1 : A.I1 → ℕ} {f2 : A.I2 → ℕ}
    (hc : IsComplex c.ops d) (hla : (c.ops.length = 1 ∧ d 2 = 0) ∨ c.ops.length = 2) (hr : IsRep c.ops d A f0 f1 f2)
    {M : Mat F} {L : Lx F} {g0 : L.J0 → ℕ} {g1 : L.J1 → ℕ} (h0 : Numbers g0 M.rows) (h1 : Numbers g1 M.cols)
    (hM : ∀ i j, M.e (g0 i) (g1 j) = L.E i j) :
    ∃ c' d' f0' f1' f2', Chain.tensorProduct c ⟨[M]⟩ = some c' ∧ (c'.ops.take 2).length = 2 ∧
      IsComplex (c'.ops.take 2) d' ∧ IsRep (c'.ops.take 2) d' (A.prod L) f0' f1' f2' := by
  have ha0 : c.ops ≠ [] := by rintro h; rw [h] at hla; simp at hla
  have hl1 : 1 ≤ c.ops.length := by omega
  obtain ⟨c', hc', hlen, hdim, hent⟩ := tensorProduct_spec (a := c) (b := ⟨[M]⟩) hc (isComplex_one M) ha0 (by simp)
  have hcx := tensorProduct_complex hc (isComplex_one M) ha0 (by simp) (fun _ _ _ _ _ _ _ _ _ _ => mul_comm _ _) hc'
  simp only [List.length_singleton] at hlen hdim hent hcx
  set la := c.ops.length with hlad
  set dB := oneDim M with hdB
  have b0 : dB 0 = M.rows := rfl
  have b1 : dB 1 = M.cols := rfl
  have hbe : ∀ k, k < 2 → ∀ i j, boundaryEntry (c'.ops.take 2) k i j = boundaryEntry c'.ops k i j := by
    intro k hk i j
    unfold boundaryEntry
    rw [List.getElem?_take, if_pos hk]
  have m00 : ((0, 0) : ℕ × ℕ) ∈ sectors la 1 0 := by rw [sectors_deg0]; simp
  have m10 : ((1, 0) : ℕ × ℕ) ∈ sectors la 1 1 := by rw [sectors_deg1 hl1]; simp
  have m01 : ((0, 1) : ℕ × ℕ) ∈ sectors la 1 1 := by rw [sectors_deg1 hl1]; simp
  have m11 : ((1, 1) : ℕ × ℕ) ∈ sectors la 1 2 := by rw [mem_sectors_deg2]; right; exact ⟨rfl, hl1⟩
  have m20 : A.I2 → ((2, 0) : ℕ × ℕ) ∈ sectors la 1 2 := by
    intro k
    rw [mem_sectors_deg2]; left
    refine ⟨rfl, ?_⟩
    have := hr.n2.lt k
    omega
  refine ⟨c', _, fun p => tensorIndex la 1 d dB (0, 0) (f0 p.1) (g0 p.2),
    Sum.elim (fun p => tensorIndex la 1 d dB (1, 0) (f1 p.1) (g0 p.2)) (fun p => tensorIndex la 1 d dB (0, 1) (f0 p.1) (g1 p.2)),
    Sum.elim (fun p => tensorIndex la 1 d dB (2, 0) (f2 p.1) (g0 p.2)) (fun p => tensorIndex la 1 d dB (1, 1) (f1 p.1) (g1 p.2)),
    hc', by rw [List.length_take, hlen]; omega, isComplex_take hcx 2, ?_⟩
  constructor
  · constructor
    · rintro ⟨i, j⟩
      exact tensorIndex_lt m00 (hr.n0.lt i) (h0.lt j)
    · intro k hk
      obtain ⟨p, hp, x, y, hx, hy, rfl⟩ := exists_tensorIndex hk
      rw [sectors_deg0, Finset.mem_singleton] at hp
      subst hp
      obtain ⟨i, rfl⟩ := hr.n0.surj x hx
      obtain ⟨j, rfl⟩ := h0.surj y hy
      exact ⟨(i, j), rfl⟩
    · show Fintype.card (A.I0 × L.J0) = _
      rw [Fintype.card_prod, hr.n0.card, h0.card, tensorDim, sectors_deg0, Finset.sum_singleton]
      rfl
  · constructor
    · rintro (⟨i, j⟩ | ⟨i, j⟩)
      · exact tensorIndex_lt m10 (hr.n1.lt i) (h0.lt j)
      · exact tensorIndex_lt m01 (hr.n0.lt i) (h1.lt j)
    · intro k hk
      obtain ⟨p, hp, x, y, hx, hy, rfl⟩ := exists_tensorIndex hk
      rw [sectors_deg1 hl1, Finset.mem_insert, Finset.mem_singleton] at hp
      rcases hp with rfl | rfl
      · obtain ⟨i, rfl⟩ := hr.n1.surj x hx
        obtain ⟨j, rfl⟩ := h0.surj y hy
        exact ⟨.inl (i, j), rfl⟩
      · obtain ⟨i, rfl⟩ := hr.n0.surj x hx
        obtain ⟨j, rfl⟩ := h1.surj y hy
        exact ⟨.inr (i, j), rfl⟩
    · show Fintype.card ((A.I1 × L.J0) ⊕ (A.I0 × L.J1)) = _
      rw [Fintype.card_sum, Fintype.card_prod, Fintype.card_prod, hr.n0.card, hr.n1.card, h0.card, h1.card, tensorDim,
        sectors_deg1 hl1, Finset.sum_insert (by decide), Finset.sum_singleton]
      rfl
  · constructor
    · rintro (⟨i, j⟩ | ⟨i, j⟩)
      · exact tensorIndex_lt (m20 i) (hr.n2.lt i) (h0.lt j)
      · exact tensorIndex_lt m11 (hr.n1.lt i) (h1.lt j)
    · intro k hk
      obtain ⟨p, hp, x, y, hx, hy, rfl⟩ := exists_tensorIndex hk
      rw [mem_sectors_deg2] at hp
      rcases hp with ⟨rfl, -⟩ | ⟨rfl, -⟩
      · obtain ⟨i, rfl⟩ := hr.n2.surj x hx
        obtain ⟨j, rfl⟩ := h0.surj y hy
        exact ⟨.inl (i, j), rfl⟩
      · obtain ⟨i, rfl⟩ := hr.n1.surj x hx
        obtain ⟨j, rfl⟩ := h1.surj y hy
        exact ⟨.inr (i, j), rfl⟩
    · show Fintype.card ((A.I2 × L.J0) ⊕ (A.I1 × L.J1)) = _
      rw [Fintype.card_sum, Fintype.card_prod, Fintype.card_prod, hr.n2.card, hr.n1.card, h0.card, h1.card,
        tensorDim_deg2 _ _ hla, b0, b1]
  · rintro ⟨i, j⟩ (⟨i', j'⟩ | ⟨i', j'⟩)
    · rw [hbe 0 (by decide)]
      refine (hent 0 (0, 0) (1, 0) _ _ _ _ m00 m10 (hr.n0.lt i) (h0.lt j) (hr.n1.lt i') (h0.lt j')).trans ?_
      rw [tensorEntry_left, hr.e1]
      show _ = if j = j' then _ else _
      by_cases h : j = j'
      · rw [if_pos h, if_pos (by rw [h])]
      · rw [if_neg h, if_neg fun e => h (h0.injective e)]
    · rw [hbe 0 (by decide)]
      refine (hent 0 (0, 0) (0, 1) _ _ _ _ m00 m01 (hr.n0.lt i) (h0.lt j) (hr.n0.lt i') (h1.lt j')).trans ?_
      rw [tensorEntry_right, pow_zero, one_mul]
      show (if _ then M.e _ _ else _) = if i = i' then _ else _
      rw [hM]
      by_cases h : i = i'
      · rw [if_pos h, if_pos (by rw [h])]
      · rw [if_neg h, if_neg fun e => h (hr.n0.injective e)]
  · rintro (⟨i, j⟩ | ⟨i, j⟩) (⟨i', j'⟩ | ⟨i', j'⟩)
    · rw [hbe 1 (by decide)]
      refine (hent 1 (1, 0) (2, 0) _ _ _ _ m10 (m20 i') (hr.n1.lt i) (h0.lt j) (hr.n2.lt i') (h0.lt j')).trans ?_
      rw [tensorEntry_left, hr.e2]
      show _ = if j = j' then _ else _
      by_cases h : j = j'
      · rw [if_pos h, if_pos (by rw [h])]
      · rw [if_neg h, if_neg fun e => h (h0.injective e)]
    · rw [hbe 1 (by decide)]
      refine (hent 1 (1, 0) (1, 1) _ _ _ _ m10 m11 (hr.n1.lt i) (h0.lt j) (hr.n1.lt i') (h1.lt j')).trans ?_
      rw [tensorEntry_right, pow_one, neg_one_mul]
      show (if _ then -M.e _ _ else _) = if i = i' then _ else _
      rw [hM]
      by_cases h : i = i'
      · rw [if_pos h, if_pos (by rw [h])]
      · rw [if_neg h, if_neg fun e => h (hr.n1.injective e)]
    · rw [hbe 1 (by decide)]
      refine (hent 1 (0, 1) (2, 0) _ _ _ _ m01 (m20 i') (hr.n0.lt i) (h1.lt j) (hr.n2.lt i') (h0.lt j')).trans ?_
      exact tensorEntry_zero (by simp) (by simp)
    · rw [hbe 1 (by decide)]
      refine (hent 1 (0, 1) (1, 1) _ _ _ _ m01 m11 (hr.n0.lt i) (h1.lt j) (hr.n1.lt i') (h1.lt j')).trans ?_
      rw [tensorEntry_left, hr.e1]
      show _ = if j = j' then _ else _
      by_cases h : j = j'
      · rw [if_pos h, if_pos (by rw [h])]
      · rw [if_neg h, if_neg fun e => h (h1.injective e)]

/-- Rows of a matrix as numbered by a complex. -/
theorem isCodeOf {ops : List (Mat F)} {d : ℕ → ℕ} {A : Cx F} {f0 : A.I0 → ℕ} {f1 : A.I1 → ℕ} {f2 : A.I2 → ℕ}
    {X Z : Mat F} (hops : ops = [X, Z]) (hX : X.rows = d 0 ∧ X.cols = d 1) (hZ : Z.rows = d 1 ∧ Z.cols = d 2)
    (hr : IsRep ops d A f0 f1 f2) : IsCodeOf A (n := X.cols) ((List.range X.rows).map fun i j => X.e i j)
      ((List.range Z.cols).map fun i j => Z.e j i) (hr.n1.equiv.trans (finCongr hX.2.symm)) := by
  subst hops
  obtain ⟨x0, x1⟩ := hX
  obtain ⟨z0, z1⟩ := hZ
  have e1 : ∀ i j, X.e (f0 i) (f1 j) = A.D1 i j := hr.e1
  have e2 : ∀ i j, Z.e (f1 i) (f2 j) = A.D2 i j := hr.e2
  set f := hr.n1.equiv.trans (finCongr x1.symm) with hf
  have fv : ∀ j, (f j).val = f1 j := fun j => rfl
  constructor
  · intro v
    constructor
    · intro h i
      have := h _ (List.mem_map.2 ⟨f0 i, List.mem_range.2 (by rw [x0]; exact hr.n0.lt i), rfl⟩)
      rw [← Equiv.sum_comp f] at this
      simp only [fv, e1] at this
      exact this
    · intro h r hr'
      obtain ⟨k, hk, rfl⟩ := List.mem_map.1 hr'
      obtain ⟨i, rfl⟩ := hr.n0.surj k (by rw [← x0]; exact List.mem_range.1 hk)
      rw [← Equiv.sum_comp f]
      simp only [fv, e1]
      exact h i
  · intro v
    constructor
    · intro h i
      have := h _ (List.mem_map.2 ⟨f2 i, List.mem_range.2 (by rw [z1]; exact hr.n2.lt i), rfl⟩)
      rw [← Equiv.sum_comp f] at this
      simp only [fv, e2, mul_comm (A.D2 _ _)] at this
      exact this
    · intro h r hr'
      obtain ⟨k, hk, rfl⟩ := List.mem_map.1 hr'
      obtain ⟨i, rfl⟩ := hr.n2.surj k (by rw [← z1]; exact List.mem_range.1 hk)
      rw [← Equiv.sum_comp f]
      simp only [fv, e2, mul_comm (A.D2 _ _)]
      exact h i
  · intro v
    have hsum : ∀ (c : A.I0 → F) (q : A.I1), (∑ i : A.I0, c i * X.e (f0 i) (f1 q)) = ∑ i, c i * A.D1 i q := by
      intro c q; simp only [e1]
    let u : A.I0 ≃ Fin ((List.range X.rows).map fun i (j : Fin X.cols) => X.e i j).length :=
      hr.n0.equiv.trans (finCongr (by simp [x0]))
    have hu : ∀ i, ((List.range X.rows).map fun i (j : Fin X.cols) => X.e i j)[u i] = fun j : Fin X.cols => X.e (f0 i) j := by
      intro i; simp [u]; rfl
    constructor
    · rintro ⟨c, rfl⟩
      refine ⟨c ∘ u, fun j => ?_⟩
      rw [Function.comp_apply, Finset.sum_apply, ← Equiv.sum_comp u]
      refine Finset.sum_congr rfl fun i _ => ?_
      rw [Pi.smul_apply, hu, smul_eq_mul]
      beta_reduce
      rw [fv, e1]; rfl
    · rintro ⟨y, hy⟩
      refine ⟨y ∘ u.symm, ?_⟩
      funext q
      obtain ⟨j, rfl⟩ := f.surjective q
      rw [Finset.sum_apply, ← Equiv.sum_comp u]
      refine (hy j).trans (Finset.sum_congr rfl fun i _ => ?_)
      rw [Pi.smul_apply, hu, smul_eq_mul]
      beta_reduce
      rw [fv, e1, Function.comp_apply, Equiv.symm_apply_apply]
  · intro v
    let u : A.I2 ≃ Fin ((List.range Z.cols).map fun i (j : Fin X.cols) => Z.e j i).length :=
      hr.n2.equiv.trans (finCongr (by simp [z1]))
    have hu : ∀ i, ((List.range Z.cols).map fun i (j : Fin X.cols) => Z.e j i)[u i] = fun j : Fin X.cols => Z.e j (f2 i) := by
      intro i; simp [u]; rfl
    constructor
    · rintro ⟨c, rfl⟩
      refine ⟨c ∘ u, fun j => ?_⟩
      rw [Function.comp_apply, Finset.sum_apply, ← Equiv.sum_comp u]
      refine Finset.sum_congr rfl fun i _ => ?_
      rw [Pi.smul_apply, hu, smul_eq_mul]
      beta_reduce
      rw [fv, e2, mul_comm]; rfl
    · rintro ⟨y, hy⟩
      refine ⟨y ∘ u.symm, ?_⟩
      funext q
      obtain ⟨j, rfl⟩ := f.surjective q
      rw [Finset.sum_apply, ← Equiv.sum_comp u]
      refine (hy j).trans (Finset.sum_congr rfl fun i _ => ?_)
      rw [Pi.smul_apply, hu, smul_eq_mul]
      beta_reduce
      rw [fv, e2, Function.comp_apply, Equiv.symm_apply_apply, mul_comm]

/-! ### The loop -/

theorem addLinks_spec {M : Mat F} {L : Lx F} {g0 : L.J0 → ℕ} {g1 : L.J1 → ℕ} (h0 : Numbers g0 M.rows)
    (h1 : Numbers g1 M.cols) (hM : ∀ i j, M.e (g0 i) (g1 j) = L.E i j) (P : ℕ → Cx F → Prop)
    (step : ∀ k A, P k A → P (k + 1) (A.prod L)) : ∀ (t k : ℕ) (c : Chain F) (d : ℕ → ℕ) (A : Cx F)
    (f0 : A.I0 → ℕ) (f1 : A.I1 → ℕ) (f2 : A.I2 → ℕ), IsComplex c.ops d →
    ((c.ops.length = 1 ∧ d 2 = 0 ∧ t ≠ 0) ∨ c.ops.length = 2) → IsRep c.ops d A f0 f1 f2 → P k A →
    ∃ (c' : Chain F) (d' : ℕ → ℕ) (A' : Cx F) (f0' : A'.I0 → ℕ) (f1' : A'.I1 → ℕ) (f2' : A'.I2 → ℕ),
      addLinks ⟨[M]⟩ t c = some c' ∧ IsComplex c'.ops d' ∧ IsRep c'.ops d' A' f0' f1' f2' ∧ P (k + t) A' ∧
        c'.ops.length = 2 := by
  intro t
  induction t with
  | zero =>
    intro k c d A f0 f1 f2 hc hla hr hP
    exact ⟨c, d, A, f0, f1, f2, rfl, hc, hr, hP, by omega⟩
  | succ t ih =>
    intro k c d A f0 f1 f2 hc hla hr hP
    obtain ⟨c', d', f0', f1', f2', e, hl, hc', hr'⟩ := tensor_step hc (by omega) hr h0 h1 hM
    obtain ⟨c'', d'', A'', f0'', f1'', f2'', e'', hc'', hr'', hP'', hl''⟩ :=
      ih (k + 1) ⟨c'.ops.take 2⟩ d' _ f0' f1' f2' hc' (Or.inr hl) hr' (step k A hP)
    refine ⟨c'', d'', A'', f0'', f1'', f2'', ?_, hc'', hr'', ?_, hl''⟩
    · rw [addLinks, e]
      simp only
      rw [mkChain_some hc']
      exact e''
    · rw [show k + (t + 1) = k + 1 + t by omega]; exact hP''

/-- The complex of the parity check matrix of a classical code. -/
def baseCx (H : Rows F n) : Cx F where
  I0 := Fin H.length
  I1 := Fin n
  I2 := Fin 0
  D1 i j := H[i] j
  D2 _ k := k.elim0

/-- The complex of the transposed parity check matrix. -/
def linkCx (H : Rows F n) : Lx F where
  J0 := Fin n
  J1 := Fin H.length
  E j i := H[i] j

theorem numbers_fin (m : ℕ) : Numbers (fun i : Fin m => i.val) m :=
  ⟨fun i => i.isLt, fun k hk => ⟨⟨k, hk⟩, rfl⟩, Fintype.card_fin m⟩

theorem rowsMat_e (H : Rows F n) (i : Fin H.length) (j : Fin n) : (rowsMat H).e i j = H[i] j := by
  simp [rowsMat]

theorem base_rep (H : Rows F n) : IsRep [rowsMat H] (oneDim (rowsMat H)) (baseCx H) Fin.val Fin.val Fin.val where
  n0 := numbers_fin _
  n1 := numbers_fin _
  n2 := numbers_fin _
  e1 i j := rowsMat_e H i j
  e2 _ k := k.elim0

theorem ops_two {c : Chain F} (h : c.ops.length = 2) : c.ops = [c.op 1, c.op 2] := by
  obtain ⟨ops⟩ := c
  obtain ⟨X, Z, rfl⟩ := List.length_eq_two.1 h
  rfl

/-- What the constructor builds from a classical code. -/
theorem lattice_code {size dim : ℕ} {periodic : Bool} (hdim : 2 ≤ dim) {base : CCode F size}
    (hbase : (if periodic then some (ringCode F size) else repetitionCode F size) = some base)
    (P : ℕ → Cx F → Prop) (h0 : P 0 (baseCx base.matrix))
    (step : ∀ k A, P k A → P (k + 1) (A.prod (linkCx base.matrix))) :
    ∃ code, generalizedSurfaceCode F size dim periodic = some code ∧ code.2.distX = size ^ (dim - 1) ∧
      code.2.distZ = size ∧ ∃ A : Cx F, P (dim - 1) A ∧ code.1 = Fintype.card A.I1 ∧
        ∃ f, IsCodeOf A code.2.hx code.2.hz f := by
  set H := base.matrix with hH
  have hT : (rowsMat H).T.rows = size ∧ (rowsMat H).T.cols = H.length := ⟨rfl, rfl⟩
  obtain ⟨c, d, A, f0, f1, f2, e, hc, hr, hP, hl⟩ := addLinks_spec (M := (rowsMat H).T) (L := linkCx H)
    (g0 := Fin.val) (g1 := Fin.val) (numbers_fin _) (numbers_fin _) (fun j i => rowsMat_e H i j) P step (dim - 1) 0
    ⟨[rowsMat H]⟩ (oneDim (rowsMat H)) (baseCx H) Fin.val Fin.val Fin.val (isComplex_one _)
    (Or.inl ⟨rfl, rfl, by omega⟩) (base_rep H) h0
  have hops := ops_two hl
  have hX := hc.1 0 (c.op 1) (by rw [hops]; rfl)
  have hZ := hc.1 1 (c.op 2) (by rw [hops]; rfl)
  have hcols : (c.op 1).cols = (c.op 2).T.cols := by
    show _ = (c.op 2).rows
    rw [hX.2, hZ.1]
  rw [zero_add] at hP
  refine ⟨⟨(c.op 1).cols, _, _, size ^ (dim - 1), size⟩, ?_, rfl, rfl, A, hP, by rw [hr.n1.card]; exact hX.2,
    _, isCodeOf hops hX hZ hr⟩
  unfold generalizedSurfaceCode
  rw [if_neg (by omega), hbase]
  simp only
  rw [mkChain_some (isComplex_one _), mkChain_some (isComplex_one _)]
  simp only
  rw [e]
  simp only
  rw [if_pos hcols]
  rfl

end QLDPC
