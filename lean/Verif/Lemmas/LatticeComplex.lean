import Mathlib.Algebra.BigOperators.Ring.Finset
import Mathlib.Algebra.BigOperators.Fin
import Mathlib.Algebra.Field.Defs
import Mathlib.Data.Fintype.BigOperators
import Mathlib.Data.Fintype.Sum
import Mathlib.Data.Fintype.Prod
import Mathlib.Tactic.Ring
import Mathlib.Tactic.LinearCombination
import Mathlib.Tactic.Abel

/-!
# Products of a complex of length two with a line or a ring

Lines of ones and the hyperplanes that they cross, in a complex `R^I2 → R^I1 → R^I0` and in its product with the
complex of a line or a ring.
-/

namespace QLDPC

/-- A complex of length two, by the entries of its two matrices. -/
structure Cx (F : Type) where
  I0 : Type
  I1 : Type
  I2 : Type
  [f0 : Fintype I0]
  [f1 : Fintype I1]
  [f2 : Fintype I2]
  [e0 : DecidableEq I0]
  [e1 : DecidableEq I1]
  [e2 : DecidableEq I2]
  D1 : I0 → I1 → F
  D2 : I1 → I2 → F

attribute [instance] Cx.f0 Cx.f1 Cx.f2 Cx.e0 Cx.e1 Cx.e2

/-- A complex of length one. -/
structure Lx (F : Type) where
  J0 : Type
  J1 : Type
  [f0 : Fintype J0]
  [f1 : Fintype J1]
  [e0 : DecidableEq J0]
  [e1 : DecidableEq J1]
  E : J0 → J1 → F

attribute [instance] Lx.f0 Lx.f1 Lx.e0 Lx.e1

/-- An array of elements of `I`. -/
structure Slab (I : Type) where
  S : Type
  T : Type
  [fS : Fintype S]
  [fT : Fintype T]
  [eS : DecidableEq S]
  [eT : DecidableEq T]
  φ : S → T → I
  s0 : S
  t0 : T
  inj : ∀ s t s' t', φ s t = φ s' t' → s = s' ∧ t = t'

attribute [instance] Slab.fS Slab.fT Slab.eS Slab.eT

variable {F : Type} [Field F]

namespace Cx

variable (A : Cx F)

def IsCycle (z : A.I1 → F) : Prop := ∀ i, ∑ j, A.D1 i j * z j = 0
def IsBoundary (z : A.I1 → F) : Prop := ∃ w : A.I2 → F, ∀ j, z j = ∑ k, A.D2 j k * w k
def IsCocycle (x : A.I1 → F) : Prop := ∀ k, ∑ j, x j * A.D2 j k = 0
def IsCoboundary (x : A.I1 → F) : Prop := ∃ y : A.I0 → F, ∀ j, x j = ∑ i, y i * A.D1 i j

/-- Rows of the array are cycles, columns are cocycles, and they can be moved. -/
structure Good (σ : Slab A.I1) : Prop where
  line : ∀ s i, ∑ t, A.D1 i (σ.φ s t) = 0
  plane : ∀ t k, ∑ s, A.D2 (σ.φ s t) k = 0
  moveLine : ∀ x, A.IsCocycle x → ∀ s s', ∑ t, x (σ.φ s t) = ∑ t, x (σ.φ s' t)
  movePlane : ∀ z, A.IsCycle z → ∀ t t', ∑ s, z (σ.φ s t) = ∑ s, z (σ.φ s t')

/-- The arrays `l` have `N` rows and `n` columns each, and their rows and columns are bases of homology and
cohomology of degree one. -/
structure HasBasis (l : List (Slab A.I1)) (N n : ℕ) : Prop where
  sq : ∀ i k, ∑ j, A.D1 i j * A.D2 j k = 0
  good : ∀ σ ∈ l, A.Good σ
  card : ∀ σ ∈ l, Fintype.card σ.S = N ∧ Fintype.card σ.T = n
  disj : l.Pairwise fun σ τ => ∀ s t s' t', σ.φ s t ≠ τ.φ s' t'
  cycles : ∀ z, A.IsCycle z → (∀ σ ∈ l, ∑ s, z (σ.φ s σ.t0) = 0) → A.IsBoundary z
  cocycles : ∀ x, A.IsCocycle x → (∀ σ ∈ l, ∑ t, x (σ.φ σ.s0 t) = 0) → A.IsCoboundary x

/-- The product complex, up to degree two. -/
def prod (L : Lx F) : Cx F where
  I0 := A.I0 × L.J0
  I1 := (A.I1 × L.J0) ⊕ (A.I0 × L.J1)
  I2 := (A.I2 × L.J0) ⊕ (A.I1 × L.J1)
  D1 p q := match q with
    | .inl q => if p.2 = q.2 then A.D1 p.1 q.1 else 0
    | .inr q => if p.1 = q.1 then L.E p.2 q.2 else 0
  D2 p q := match p, q with
    | .inl p, .inl q => if p.2 = q.2 then A.D2 p.1 q.1 else 0
    | .inl p, .inr q => if p.1 = q.1 then -L.E p.2 q.2 else 0
    | .inr _, .inl _ => 0
    | .inr p, .inr q => if p.2 = q.2 then A.D1 p.1 q.1 else 0

variable {A} {L : Lx F}

theorem prod_cycle (z : (A.prod L).I1 → F) : (A.prod L).IsCycle z ↔
    ∀ i j, ∑ i', A.D1 i i' * z (.inl (i', j)) + ∑ j', L.E j j' * z (.inr (i, j')) = 0 := by
  have h : ∀ i j, ∑ q, (A.prod L).D1 (i, j) q * z q =
      ∑ i', A.D1 i i' * z (.inl (i', j)) + ∑ j', L.E j j' * z (.inr (i, j')) := by
    intro i j
    show ∑ q : (A.I1 × L.J0) ⊕ (A.I0 × L.J1), _ = _
    rw [Fintype.sum_sum_type, Fintype.sum_prod_type, Fintype.sum_prod_type]
    congr 1
    · refine Finset.sum_congr rfl fun i' _ => ?_
      simp [prod]
    · rw [Finset.sum_comm]
      refine Finset.sum_congr rfl fun i' _ => ?_
      simp [prod]
  exact ⟨fun H i j => by rw [← h]; exact H (i, j), fun H ⟨i, j⟩ => (h i j).trans (H i j)⟩

theorem prod_cocycle (x : (A.prod L).I1 → F) : (A.prod L).IsCocycle x ↔
    (∀ k j, ∑ i, x (.inl (i, j)) * A.D2 i k = 0) ∧
    ∀ i j, ∑ i', x (.inr (i', j)) * A.D1 i' i = ∑ j', x (.inl (i, j')) * L.E j' j := by
  have h1 : ∀ k j, ∑ q, x q * (A.prod L).D2 q (.inl (k, j)) = ∑ i, x (.inl (i, j)) * A.D2 i k := by
    intro k j
    show ∑ q : (A.I1 × L.J0) ⊕ (A.I0 × L.J1), _ = _
    rw [Fintype.sum_sum_type, Fintype.sum_prod_type]
    simp [prod]
  have h2 : ∀ i j, ∑ q, x q * (A.prod L).D2 q (.inr (i, j)) =
      ∑ i', x (.inr (i', j)) * A.D1 i' i - ∑ j', x (.inl (i, j')) * L.E j' j := by
    intro i j
    show ∑ q : (A.I1 × L.J0) ⊕ (A.I0 × L.J1), _ = _
    rw [Fintype.sum_sum_type, Fintype.sum_prod_type, Fintype.sum_prod_type, Finset.sum_comm]
    simp [prod]
    ring
  constructor
  · intro H
    exact ⟨fun k j => by rw [← h1]; exact H _, fun i j => by
      have := H (.inr (i, j)); rw [h2] at this; exact sub_eq_zero.1 this⟩
  · rintro ⟨H1, H2⟩ (⟨k, j⟩ | ⟨i, j⟩)
    · rw [h1]; exact H1 k j
    · rw [h2]; exact sub_eq_zero.2 (H2 i j)

theorem prod_boundary {z : (A.prod L).I1 → F} (w : A.I2 → L.J0 → F) (c : A.I1 → L.J1 → F)
    (h1 : ∀ i j, z (.inl (i, j)) = ∑ k, A.D2 i k * w k j - ∑ j', L.E j j' * c i j')
    (h2 : ∀ i j, z (.inr (i, j)) = ∑ i', A.D1 i i' * c i' j) : (A.prod L).IsBoundary z := by
  refine ⟨Sum.elim (fun q => w q.1 q.2) (fun q => c q.1 q.2), ?_⟩
  rintro (⟨i, j⟩ | ⟨i, j⟩)
  · show _ = ∑ q : (A.I2 × L.J0) ⊕ (A.I1 × L.J1), _
    rw [h1, Fintype.sum_sum_type, Fintype.sum_prod_type, Fintype.sum_prod_type, Finset.sum_comm (γ := A.I1)]
    simp [prod]
    ring
  · show _ = ∑ q : (A.I2 × L.J0) ⊕ (A.I1 × L.J1), _
    rw [h2, Fintype.sum_sum_type, Fintype.sum_prod_type, Fintype.sum_prod_type]
    simp [prod]

theorem prod_coboundary {x : (A.prod L).I1 → F} (y : A.I0 → L.J0 → F)
    (h1 : ∀ i j, x (.inl (i, j)) = ∑ i', y i' j * A.D1 i' i)
    (h2 : ∀ i j, x (.inr (i, j)) = ∑ j', y i j' * L.E j' j) : (A.prod L).IsCoboundary x := by
  refine ⟨fun q => y q.1 q.2, ?_⟩
  rintro (⟨i, j⟩ | ⟨i, j⟩)
  · show _ = ∑ q : A.I0 × L.J0, _
    rw [h1, Fintype.sum_prod_type]
    simp [prod]
  · show _ = ∑ q : A.I0 × L.J0, _
    rw [h2, Fintype.sum_prod_type, Finset.sum_comm]
    simp [prod]

theorem prod_sq (h : ∀ i k, ∑ j, A.D1 i j * A.D2 j k = 0) (p : (A.prod L).I0) (q : (A.prod L).I2) :
    ∑ j, (A.prod L).D1 p j * (A.prod L).D2 j q = 0 := by
  obtain ⟨i, j⟩ := p
  show ∑ q : (A.I1 × L.J0) ⊕ (A.I0 × L.J1), _ = _
  rcases q with ⟨k, j'⟩ | ⟨i', j'⟩
  · rw [Fintype.sum_sum_type, Fintype.sum_prod_type]
    simp only [prod, mul_zero, Finset.sum_const_zero, add_zero]
    by_cases hj : j = j'
    · subst hj
      simpa using h i k
    · refine Finset.sum_eq_zero fun x _ => Finset.sum_eq_zero fun y _ => ?_
      by_cases h1 : j = y
      · rw [if_neg (c := y = j') (by rw [← h1]; exact hj), mul_zero]
      · rw [if_neg h1, zero_mul]
  · rw [Fintype.sum_sum_type, Fintype.sum_prod_type, Fintype.sum_prod_type]
    simp [prod]
    ring

/-- Move an array along the link. -/
def lift (L : Lx F) (j0 : L.J0) (σ : Slab A.I1) : Slab (A.prod L).I1 where
  S := σ.S × L.J0
  T := σ.T
  φ s t := .inl (σ.φ s.1 t, s.2)
  s0 := (σ.s0, j0)
  t0 := σ.t0
  inj := by
    rintro ⟨s, j⟩ t ⟨s', j'⟩ t' h
    have h := Sum.inl.inj h
    obtain ⟨h1, h2⟩ := Prod.mk.inj h
    obtain ⟨rfl, rfl⟩ := σ.inj _ _ _ _ h1
    exact ⟨Prod.ext rfl h2, rfl⟩

/-- The array of the lines in the direction of the link. -/
def across (A : Cx F) (L : Lx F) (i0 : A.I0) (j1 : L.J1) : Slab (A.prod L).I1 where
  S := A.I0
  T := L.J1
  φ s t := .inr (s, t)
  s0 := i0
  t0 := j1
  inj := by
    intro s t s' t' h
    have h := Sum.inr.inj h
    exact ⟨congrArg Prod.fst h, congrArg Prod.snd h⟩

/-- Boundaries in a link have sum zero, and all vectors with sum zero are boundaries. -/
structure LinkOk (L : Lx F) : Prop where
  aug : ∀ j, ∑ i, L.E i j = 0
  exact : ∀ v : L.J0 → F, ∑ j, v j = 0 → ∃ c : L.J1 → F, ∀ j, v j = ∑ j', L.E j j' * c j'

/-- The difference of two points is a boundary. -/
theorem LinkOk.points (h : LinkOk L) (a b : L.J0) : ∃ c : L.J1 → F, ∀ v : L.J0 → F,
    v a - v b = ∑ j', (∑ j, v j * L.E j j') * c j' := by
  obtain ⟨c, hc⟩ := h.exact (fun j => (if j = a then 1 else 0) - (if j = b then 1 else 0)) (by simp)
  refine ⟨c, fun v => ?_⟩
  have : ∑ j, v j * ((if j = a then 1 else 0) - (if j = b then 1 else 0)) = v a - v b := by
    simp [mul_sub]
  rw [← this]
  simp only [hc, Finset.mul_sum, Finset.sum_mul]
  rw [Finset.sum_comm]
  exact Finset.sum_congr rfl fun _ _ => Finset.sum_congr rfl fun _ _ => by ring

theorem sum_cycle (hL : LinkOk L) {z : (A.prod L).I1 → F} (hz : (A.prod L).IsCycle z) :
    A.IsCycle fun i => ∑ j, z (.inl (i, j)) := by
  rw [prod_cycle] at hz
  intro i
  have h := Finset.sum_eq_zero (s := Finset.univ) fun j _ => hz i j
  rw [Finset.sum_add_distrib] at h
  have h2 : ∑ j, ∑ j', L.E j j' * z (.inr (i, j')) = 0 := by
    rw [Finset.sum_comm]
    refine Finset.sum_eq_zero fun j' _ => ?_
    rw [← Finset.sum_mul, hL.aug, zero_mul]
  rw [h2, add_zero, Finset.sum_comm] at h
  simpa only [Finset.mul_sum] using h

theorem move_cocycle (hL : LinkOk L) {x : (A.prod L).I1 → F} (hx : (A.prod L).IsCocycle x) (a b : L.J0) :
    ∃ c : L.J1 → F, ∀ i, x (.inl (i, a)) - x (.inl (i, b)) =
      ∑ i', (∑ j', x (.inr (i', j')) * c j') * A.D1 i' i := by
  rw [prod_cocycle] at hx
  obtain ⟨c, hc⟩ := hL.points a b
  refine ⟨c, fun i => ?_⟩
  rw [hc fun j => x (.inl (i, j))]
  simp only [← hx.2, Finset.sum_mul]
  rw [Finset.sum_comm]
  exact Finset.sum_congr rfl fun _ _ => Finset.sum_congr rfl fun _ _ => by ring

theorem good_lift (hL : LinkOk L) (j0 : L.J0) {σ : Slab A.I1} (hσ : A.Good σ) : (A.prod L).Good (lift L j0 σ) := by
  constructor
  · rintro ⟨s, j⟩ ⟨i, j'⟩
    show ∑ t : σ.T, (if j' = j then A.D1 i (σ.φ s t) else 0) = 0
    split_ifs
    · exact hσ.line s i
    · simp
  · rintro t (⟨k, j⟩ | ⟨i, j⟩)
    · show ∑ s : σ.S × L.J0, (if s.2 = j then A.D2 (σ.φ s.1 t) k else 0) = 0
      rw [Fintype.sum_prod_type]
      simpa using hσ.plane t k
    · show ∑ s : σ.S × L.J0, (if σ.φ s.1 t = i then -L.E s.2 j else 0) = 0
      rw [Fintype.sum_prod_type]
      refine Finset.sum_eq_zero fun s _ => ?_
      dsimp only
      split_ifs
      · rw [Finset.sum_neg_distrib, hL.aug, neg_zero]
      · simp
  · rintro x hx ⟨s, j⟩ ⟨s', j'⟩
    show ∑ t : σ.T, x (.inl (σ.φ s t, j)) = ∑ t : σ.T, x (.inl (σ.φ s' t, j'))
    obtain ⟨c, hc⟩ := move_cocycle hL hx j j'
    have h1 := hσ.moveLine (fun i => x (.inl (i, j'))) (fun k => ((prod_cocycle x).1 hx).1 k j') s s'
    rw [← h1, ← sub_eq_zero, ← Finset.sum_sub_distrib]
    simp only [hc]
    rw [Finset.sum_comm]
    refine Finset.sum_eq_zero fun i _ => ?_
    rw [← Finset.mul_sum, hσ.line, mul_zero]
  · intro z hz t t'
    show ∑ s : σ.S × L.J0, z (.inl (σ.φ s.1 t, s.2)) = ∑ s : σ.S × L.J0, z (.inl (σ.φ s.1 t', s.2))
    rw [Fintype.sum_prod_type, Fintype.sum_prod_type]
    exact hσ.movePlane _ (sum_cycle hL hz) t t'

/-- The first half of the argument on cycles: only a cycle in the direction of the link is left. -/
theorem reduce_cycle (hL : LinkOk L) (j0 : L.J0) {l : List (Slab A.I1)} {N n : ℕ} (hA : A.HasBasis l N n)
    {z : (A.prod L).I1 → F} (hz : (A.prod L).IsCycle z)
    (h0 : ∀ σ ∈ l, ∑ s, z ((lift L j0 σ).φ s (lift L j0 σ).t0) = 0) :
    ∃ (w : A.I2 → L.J0 → F) (c : A.I1 → L.J1 → F),
      (∀ i j, z (.inl (i, j)) = ∑ k, A.D2 i k * w k j - ∑ j', L.E j j' * c i j') ∧
      ∀ i j, ∑ j', L.E j j' * (z (.inr (i, j')) - ∑ i', A.D1 i i' * c i' j') = 0 := by
  obtain ⟨w, hw⟩ := hA.cycles _ (sum_cycle hL hz) (by
    intro σ hσ
    have := h0 σ hσ
    have e : ∑ s, z ((lift L j0 σ).φ s (lift L j0 σ).t0) = ∑ s : σ.S × L.J0, z (.inl (σ.φ s.1 σ.t0, s.2)) := rfl
    rw [e, Fintype.sum_prod_type] at this
    exact this)
  have hc : ∀ i, ∃ c : L.J1 → F, ∀ j, (if j = j0 then ∑ j', z (.inl (i, j')) else 0) - z (.inl (i, j)) =
      ∑ j', L.E j j' * c j' := fun i => hL.exact _ (by
    rw [Finset.sum_sub_distrib]; simp)
  choose c hc using hc
  refine ⟨fun k j => if j = j0 then w k else 0, c, ?_, ?_⟩
  · intro i j
    rw [← hc]
    by_cases hj : j = j0
    · simp only [if_pos hj, hw]; ring
    · simp [if_neg hj]
  · intro i j
    have h1 := (prod_cycle z).1 hz i j
    have h2 : ∑ j', L.E j j' * ∑ i', A.D1 i i' * c i' j' =
        ∑ i', A.D1 i i' * ((if j = j0 then ∑ j', z (.inl (i', j')) else 0) - z (.inl (i', j))) := by
      simp only [hc, Finset.mul_sum]
      rw [Finset.sum_comm]
      exact Finset.sum_congr rfl fun _ _ => Finset.sum_congr rfl fun _ _ => by ring
    have h3 : ∑ i', A.D1 i i' * (if j = j0 then ∑ j', z (.inl (i', j')) else 0) = 0 := by
      split_ifs
      · exact sum_cycle hL hz i
      · simp
    simp only [mul_sub, Finset.sum_sub_distrib] at h2 ⊢
    rw [h2, h3, zero_sub, sub_neg_eq_add, add_comm]
    exact h1

/-- The first half of the argument on cocycles. -/
theorem reduce_cocycle (hL : LinkOk L) (j0 : L.J0) {l : List (Slab A.I1)} {N n : ℕ} (hA : A.HasBasis l N n)
    {x : (A.prod L).I1 → F} (hx : (A.prod L).IsCocycle x)
    (h0 : ∀ σ ∈ l, ∑ t, x ((lift L j0 σ).φ (lift L j0 σ).s0 t) = 0) :
    ∃ y : A.I0 → L.J0 → F, (∀ i j, x (.inl (i, j)) = ∑ i', y i' j * A.D1 i' i) ∧
      ∀ i j, ∑ i', (x (.inr (i', j)) - ∑ j', y i' j' * L.E j' j) * A.D1 i' i = 0 := by
  obtain ⟨y, hy⟩ := hA.cocycles (fun i => x (.inl (i, j0))) (fun k => ((prod_cocycle x).1 hx).1 k j0) h0
  choose c hc using fun j => move_cocycle hL hx j j0
  have h1 : ∀ i j, x (.inl (i, j)) = ∑ i', (y i' + ∑ j', x (.inr (i', j')) * c j j') * A.D1 i' i := by
    intro i j
    simp only [add_mul, Finset.sum_add_distrib]
    rw [← hc, ← hy]
    ring
  refine ⟨fun i j => y i + ∑ j', x (.inr (i, j')) * c j j', h1, fun i j => ?_⟩
  have h2 := ((prod_cocycle x).1 hx).2 i j
  simp only [sub_mul, Finset.sum_sub_distrib]
  rw [h2, sub_eq_zero]
  simp only [h1, Finset.sum_mul]
  rw [Finset.sum_comm]
  exact Finset.sum_congr rfl fun _ _ => Finset.sum_congr rfl fun _ _ => by ring

theorem pairwise_lift (L : Lx F) (j0 : L.J0) {l : List (Slab A.I1)}
    (h : l.Pairwise fun σ τ => ∀ s t s' t', σ.φ s t ≠ τ.φ s' t') :
    (l.map (lift L j0)).Pairwise fun σ τ => ∀ s t s' t', σ.φ s t ≠ τ.φ s' t' := by
  rw [List.pairwise_map]
  refine h.imp ?_
  rintro σ τ h ⟨s, j⟩ t ⟨s', j'⟩ t' he
  exact h s t s' t' (congrArg Prod.fst (Sum.inl.inj he))

/-- The product with a line. -/
theorem basis_line (hL : LinkOk L) (j0 : L.J0)
    (hinj : ∀ c : L.J1 → F, (∀ j, ∑ j', L.E j j' * c j' = 0) → ∀ j', c j' = 0)
    {l : List (Slab A.I1)} {N n : ℕ} (hA : A.HasBasis l N n)
    (hA0 : ∀ y : A.I0 → F, (∀ j, ∑ i, y i * A.D1 i j = 0) → ∀ i, y i = 0) :
    (A.prod L).HasBasis (l.map (lift L j0)) (N * Fintype.card L.J0) n ∧
    ∀ y : (A.prod L).I0 → F, (∀ j, ∑ i, y i * (A.prod L).D1 i j = 0) → ∀ i, y i = 0 := by
  refine ⟨⟨prod_sq hA.sq, ?_, ?_, pairwise_lift L j0 hA.disj, ?_, ?_⟩, ?_⟩
  · intro τ hτ
    obtain ⟨σ, hσ, rfl⟩ := List.mem_map.1 hτ
    exact good_lift hL j0 (hA.good σ hσ)
  · intro τ hτ
    obtain ⟨σ, hσ, rfl⟩ := List.mem_map.1 hτ
    obtain ⟨h1, h2⟩ := hA.card σ hσ
    refine ⟨?_, h2⟩
    show Fintype.card (σ.S × L.J0) = _
    rw [Fintype.card_prod, h1]
  · intro z hz h0
    obtain ⟨w, c, h1, h2⟩ := reduce_cycle hL j0 hA hz fun σ hσ => h0 _ (List.mem_map_of_mem hσ)
    exact prod_boundary w c h1 fun i j => sub_eq_zero.1 (hinj _ (h2 i) j)
  · intro x hx h0
    obtain ⟨y, h1, h2⟩ := reduce_cocycle hL j0 hA hx fun σ hσ => h0 _ (List.mem_map_of_mem hσ)
    exact prod_coboundary y h1 fun i j =>
      sub_eq_zero.1 (hA0 (fun i' => x (.inr (i', j)) - ∑ j', y i' j' * L.E j' j) (fun i' => h2 i' j) i)
  · rintro y hy ⟨i, j⟩
    refine hA0 (fun i => y (i, j)) (fun i' => ?_) i
    have := hy (.inl (i', j))
    have e : ∑ p, y p * (A.prod L).D1 p (.inl (i', j)) =
      ∑ p : A.I0 × L.J0, y p * (if p.2 = j then A.D1 p.1 i' else 0) := rfl
    rw [e, Fintype.sum_prod_type] at this
    simpa using this

theorem good_across (i0 : A.I0) (j1 : L.J1)
    (hker : ∀ c : L.J1 → F, (∀ j, ∑ j', L.E j j' * c j' = 0) → ∀ a b, c a = c b)
    (hone : ∀ j, ∑ j', L.E j j' = 0) (hA0 : ∀ j, ∑ i, A.D1 i j = 0)
    (hA1 : ∀ v : A.I0 → F, ∑ i, v i = 0 → ∃ γ : A.I1 → F, ∀ i, v i = ∑ j, A.D1 i j * γ j) :
    (A.prod L).Good (across A L i0 j1) := by
  constructor
  · rintro (s : A.I0) ⟨i, j⟩
    show ∑ t : L.J1, (if i = s then L.E j t else 0) = 0
    split_ifs
    · exact hone j
    · simp
  · rintro (t : L.J1) (⟨k, j⟩ | ⟨i, j⟩)
    · show ∑ s : A.I0, (0 : F) = 0
      simp
    · show ∑ s : A.I0, (if t = j then A.D1 s i else 0) = 0
      split_ifs
      · exact hA0 i
      · simp
  · intro x hx (s : A.I0) (s' : A.I0)
    show ∑ t : L.J1, x (.inr (s, t)) = ∑ t : L.J1, x (.inr (s', t))
    obtain ⟨γ, hγ⟩ := hA1 (fun i => (if i = s then 1 else 0) - (if i = s' then 1 else 0)) (by simp)
    have e : ∀ t, x (.inr (s, t)) - x (.inr (s', t)) = ∑ i, (∑ j, x (.inl (i, j)) * L.E j t) * γ i := by
      intro t
      have : ∑ i, x (.inr (i, t)) * ((if i = s then 1 else 0) - (if i = s' then 1 else 0)) =
          x (.inr (s, t)) - x (.inr (s', t)) := by simp [mul_sub]
      rw [← this]
      simp only [hγ, ← ((prod_cocycle x).1 hx).2, Finset.mul_sum, Finset.sum_mul]
      rw [Finset.sum_comm]
      exact Finset.sum_congr rfl fun _ _ => Finset.sum_congr rfl fun _ _ => by ring
    rw [← sub_eq_zero, ← Finset.sum_sub_distrib]
    simp only [e]
    rw [Finset.sum_comm]
    refine Finset.sum_eq_zero fun i _ => ?_
    rw [← Finset.sum_mul, Finset.sum_comm]
    simp only [← Finset.mul_sum, hone, mul_zero, Finset.sum_const_zero, zero_mul]
  · intro z hz t t'
    show ∑ s : A.I0, z (.inr (s, t)) = ∑ s : A.I0, z (.inr (s, t'))
    refine hker (fun t => ∑ s : A.I0, z (.inr (s, t))) (fun j => ?_) t t'
    have h := Finset.sum_eq_zero (s := Finset.univ) fun i _ => (prod_cycle z).1 hz i j
    rw [Finset.sum_add_distrib, Finset.sum_comm] at h
    simp only [← Finset.sum_mul, hA0, zero_mul, Finset.sum_const_zero, zero_add] at h
    simp only [Finset.mul_sum]
    rw [Finset.sum_comm]
    exact h

/-- The product with a ring. -/
theorem basis_ring (hL : LinkOk L) (i0 : A.I0) (j0 : L.J0) (j1 : L.J1)
    (hker : ∀ c : L.J1 → F, (∀ j, ∑ j', L.E j j' * c j' = 0) → ∀ a b, c a = c b)
    (hone : ∀ j, ∑ j', L.E j j' = 0)
    (hco : ∀ β : L.J1 → F, ∑ j, β j = 0 → ∃ η : L.J0 → F, ∀ j, β j = ∑ j', η j' * L.E j' j)
    {l : List (Slab A.I1)} {N n : ℕ} (hA : A.HasBasis l N n)
    (hA0 : ∀ j, ∑ i, A.D1 i j = 0)
    (hA1 : ∀ v : A.I0 → F, ∑ i, v i = 0 → ∃ γ : A.I1 → F, ∀ i, v i = ∑ j, A.D1 i j * γ j)
    (hcard : Fintype.card L.J1 = n) (hN : Fintype.card A.I0 = N * Fintype.card L.J0) :
    (A.prod L).HasBasis (l.map (lift L j0) ++ [across A L i0 j1]) (N * Fintype.card L.J0) n ∧
    (∀ j, ∑ i, (A.prod L).D1 i j = 0) ∧
    (∀ v : (A.prod L).I0 → F, ∑ i, v i = 0 → ∃ γ : (A.prod L).I1 → F, ∀ i, v i = ∑ j, (A.prod L).D1 i j * γ j) ∧
    Fintype.card (A.prod L).I0 = N * Fintype.card L.J0 * Fintype.card L.J0 := by
  refine ⟨⟨prod_sq hA.sq, ?_, ?_, ?_, ?_, ?_⟩, ?_, ?_, ?_⟩
  · intro τ hτ
    rw [List.mem_append, List.mem_map, List.mem_singleton] at hτ
    rcases hτ with ⟨σ, hσ, rfl⟩ | rfl
    · exact good_lift hL j0 (hA.good σ hσ)
    · exact good_across i0 j1 hker hone hA0 hA1
  · intro τ hτ
    rw [List.mem_append, List.mem_map, List.mem_singleton] at hτ
    rcases hτ with ⟨σ, hσ, rfl⟩ | rfl
    · obtain ⟨h1, h2⟩ := hA.card σ hσ
      refine ⟨?_, h2⟩
      show Fintype.card (σ.S × L.J0) = _
      rw [Fintype.card_prod, h1]
    · exact ⟨hN, hcard⟩
  · rw [List.pairwise_append]
    refine ⟨pairwise_lift L j0 hA.disj, List.pairwise_singleton _ _, ?_⟩
    intro τ hτ υ hυ s t s' t' he
    obtain ⟨σ, hσ, rfl⟩ := List.mem_map.1 hτ
    obtain rfl := List.mem_singleton.1 hυ
    cases he
  · intro z hz h0
    obtain ⟨w, c, h1, h2⟩ := reduce_cycle hL j0 hA hz fun σ hσ =>
      h0 _ (List.mem_append_left _ (List.mem_map_of_mem hσ))
    have hs : ∑ s : A.I0, z (.inr (s, j1)) = 0 := h0 _ (List.mem_append_right _ (List.mem_singleton.2 rfl))
    obtain ⟨γ, hγ⟩ := hA1 (fun i => z (.inr (i, j1)) - ∑ i', A.D1 i i' * c i' j1) (by
      rw [Finset.sum_sub_distrib, hs, Finset.sum_comm]
      simp only [← Finset.sum_mul, hA0, zero_mul, Finset.sum_const_zero, sub_zero])
    refine prod_boundary w (fun i j => c i j + γ i) ?_ ?_
    · intro i j
      simp only [mul_add, Finset.sum_add_distrib, ← Finset.sum_mul, hone, zero_mul, add_zero]
      exact h1 i j
    · intro i j
      have := hker _ (h2 i) j j1
      rw [hγ] at this
      simp only [mul_add, Finset.sum_add_distrib]
      rw [← this]
      ring
  · intro x hx h0
    obtain ⟨y, h1, h2⟩ := reduce_cocycle hL j0 hA hx fun σ hσ =>
      h0 _ (List.mem_append_left _ (List.mem_map_of_mem hσ))
    have hs : ∑ t : L.J1, x (.inr (i0, t)) = 0 := h0 _ (List.mem_append_right _ (List.mem_singleton.2 rfl))
    obtain ⟨η, hη⟩ := hco (fun j => x (.inr (i0, j)) - ∑ j', y i0 j' * L.E j' j) (by
      rw [Finset.sum_sub_distrib, hs, Finset.sum_comm]
      simp only [← Finset.mul_sum, hone, mul_zero, Finset.sum_const_zero, sub_zero])
    have hconst : ∀ v : A.I0 → F, (∀ j, ∑ i, v i * A.D1 i j = 0) → ∀ a b, v a = v b := by
      intro v hv a b
      obtain ⟨γ, hγ⟩ := hA1 (fun i => (if i = a then 1 else 0) - (if i = b then 1 else 0)) (by simp)
      have e : ∑ i, v i * ((if i = a then 1 else 0) - (if i = b then 1 else 0)) = v a - v b := by simp [mul_sub]
      rw [← sub_eq_zero, ← e]
      simp only [hγ, Finset.mul_sum]
      rw [Finset.sum_comm]
      refine Finset.sum_eq_zero fun j _ => ?_
      rw [← zero_mul (γ j), ← hv j, Finset.sum_mul]
      exact Finset.sum_congr rfl fun _ _ => by ring
    refine prod_coboundary (fun i j => y i j + η j) ?_ ?_
    · intro i j
      simp only [add_mul, Finset.sum_add_distrib, ← Finset.mul_sum, hA0, mul_zero, add_zero]
      exact h1 i j
    · intro i j
      have := hconst (fun i' => x (.inr (i', j)) - ∑ j', y i' j' * L.E j' j) (fun i' => h2 i' j) i i0
      rw [hη] at this
      simp only [add_mul, Finset.sum_add_distrib]
      rw [← this]
      ring
  · rintro (⟨i, j⟩ | ⟨i, j⟩)
    · show ∑ p : A.I0 × L.J0, (if p.2 = j then A.D1 p.1 i else 0) = 0
      rw [Fintype.sum_prod_type]
      simpa using hA0 i
    · show ∑ p : A.I0 × L.J0, (if p.1 = i then L.E p.2 j else 0) = 0
      rw [Fintype.sum_prod_type, Finset.sum_comm]
      simpa using hL.aug j
  · intro v hv
    -- move all points along the link, then along the first complex
    have hv' : ∑ i, ∑ j, v (i, j) = 0 := by
      rw [← Fintype.sum_prod_type']; exact hv
    obtain ⟨γ, hγ⟩ := hA1 (fun i => ∑ j, v (i, j)) hv'
    have hc : ∀ i, ∃ c : L.J1 → F, ∀ j, v (i, j) - (if j = j0 then ∑ j', v (i, j') else 0) =
        ∑ j', L.E j j' * c j' := fun i => hL.exact _ (by rw [Finset.sum_sub_distrib]; simp)
    choose c hc using hc
    refine ⟨Sum.elim (fun q => if q.2 = j0 then γ q.1 else 0) (fun q => c q.1 q.2), ?_⟩
    rintro ⟨i, j⟩
    show _ = ∑ q : (A.I1 × L.J0) ⊕ (A.I0 × L.J1), _
    rw [Fintype.sum_sum_type, Fintype.sum_prod_type, Fintype.sum_prod_type, Finset.sum_comm (γ := A.I0)]
    have e2 : ∑ x, ∑ y, (A.prod L).D1 (i, j) (.inr (y, x)) * c y x = ∑ j', L.E j j' * c i j' := by
      simp [prod]
    have e1 : ∑ x, ∑ y, (A.prod L).D1 (i, j) (.inl (x, y)) * (if y = j0 then γ x else 0) =
        if j = j0 then ∑ x, A.D1 i x * γ x else 0 := by
      by_cases h : j = j0
      · subst h; simp [prod]
      · rw [if_neg h]
        refine Finset.sum_eq_zero fun x _ => Finset.sum_eq_zero fun y _ => ?_
        by_cases hy : y = j0
        · have : (A.prod L).D1 (i, j) (.inl (x, y)) = 0 := if_neg fun e => h (e.trans hy)
          rw [this, zero_mul]
        · rw [if_neg hy, mul_zero]
    simp only [Sum.elim_inl, Sum.elim_inr]
    rw [e1, e2, ← hc, ← hγ]
    ring
  · show Fintype.card (A.I0 × L.J0) = _
    rw [Fintype.card_prod, hN]

end Cx

end QLDPC
