import Verif.Lemmas.LatticeComplex
import Verif.Lemmas.CssDistance
import Verif.Spec.Lattice
import Verif.Props.CSS

/-!
# Parameters of a CSS code from arrays of lines and hyperplanes
-/

namespace QLDPC

open Spec

variable {F : Type} [Field F] [DecidableEq F] {n : ℕ}

/-- The checks `hx`, `hz` are the matrices of the complex `A`. -/
structure IsCodeOf (A : Cx F) (hx hz : Rows F n) (f : A.I1 ≃ Fin n) : Prop where
  wordX : ∀ v, IsWord hx v ↔ A.IsCycle (v ∘ f)
  wordZ : ∀ v, IsWord hz v ↔ A.IsCocycle (v ∘ f)
  combX : ∀ v, IsCombination hx v ↔ A.IsCoboundary (v ∘ f)
  combZ : ∀ v, IsCombination hz v ↔ A.IsBoundary (v ∘ f)

namespace Cx

variable {A : Cx F} {l : List (Slab A.I1)} {N m : ℕ}

theorem boundary_pair (hA : A.HasBasis l N m) {σ : Slab A.I1} (hσ : σ ∈ l) {z : A.I1 → F} (hz : A.IsBoundary z) (t : σ.T) :
    ∑ s, z (σ.φ s t) = 0 := by
  obtain ⟨w, hw⟩ := hz
  simp only [hw]
  rw [Finset.sum_comm]
  simp only [← Finset.sum_mul, (hA.good σ hσ).plane, zero_mul, Finset.sum_const_zero]

theorem coboundary_pair (hA : A.HasBasis l N m) {σ : Slab A.I1} (hσ : σ ∈ l) {x : A.I1 → F} (hx : A.IsCoboundary x)
    (s : σ.S) : ∑ t, x (σ.φ s t) = 0 := by
  obtain ⟨w, hw⟩ := hx
  simp only [hw]
  rw [Finset.sum_comm]
  simp only [← Finset.mul_sum, (hA.good σ hσ).line, mul_zero, Finset.sum_const_zero]

/-- The ones on a row of an array. -/
def lineOf (σ : Slab A.I1) (s : σ.S) : A.I1 → F := fun i => if ∃ t, σ.φ s t = i then 1 else 0

/-- The ones on a column of an array. -/
def planeOf (σ : Slab A.I1) (t : σ.T) : A.I1 → F := fun i => if ∃ s, σ.φ s t = i then 1 else 0

theorem sum_line (σ : Slab A.I1) (s : σ.S) (g : A.I1 → F) : ∑ i, g i * lineOf σ s i = ∑ t, g (σ.φ s t) := by
  have h : Function.Injective fun t => σ.φ s t := fun t t' h => (σ.inj _ _ _ _ h).2
  simp only [lineOf, mul_ite, mul_one, mul_zero]
  rw [← Finset.sum_filter, ← Finset.sum_image (f := g) (s := Finset.univ) (g := fun t => σ.φ s t) fun a _ b _ e => h e]
  refine Finset.sum_congr ?_ fun _ _ => rfl
  ext i; simp

theorem sum_plane (σ : Slab A.I1) (t : σ.T) (g : A.I1 → F) : ∑ i, planeOf σ t i * g i = ∑ s, g (σ.φ s t) := by
  have h : Function.Injective fun s => σ.φ s t := fun s s' h => (σ.inj _ _ _ _ h).1
  simp only [planeOf, ite_mul, one_mul, zero_mul]
  rw [← Finset.sum_filter, ← Finset.sum_image (f := g) (s := Finset.univ) (g := fun s => σ.φ s t) fun a _ b _ e => h e]
  refine Finset.sum_congr ?_ fun _ _ => rfl
  ext i; simp

theorem line_self (σ : Slab A.I1) (s : σ.S) (t : σ.T) : ∑ s', (lineOf σ s (σ.φ s' t) : F) = 1 := by
  rw [Finset.sum_eq_single s]
  · simp [lineOf]
  · intro s' _ h
    rw [lineOf, if_neg]
    rintro ⟨t', e⟩
    exact h (σ.inj _ _ _ _ e).1.symm
  · simp

theorem plane_self (σ : Slab A.I1) (s : σ.S) (t : σ.T) : ∑ t', (planeOf σ t (σ.φ s t') : F) = 1 := by
  rw [Finset.sum_eq_single t]
  · simp [planeOf]
  · intro t' _ h
    rw [planeOf, if_neg]
    rintro ⟨s', e⟩
    exact h (σ.inj _ _ _ _ e).2.symm
  · simp

theorem line_cycle (hA : A.HasBasis l N m) {σ : Slab A.I1} (hσ : σ ∈ l) (s : σ.S) : A.IsCycle (lineOf σ s) := by
  intro i
  rw [sum_line]
  exact (hA.good σ hσ).line s i

theorem plane_cocycle (hA : A.HasBasis l N m) {σ : Slab A.I1} (hσ : σ ∈ l) (t : σ.T) : A.IsCocycle (planeOf σ t) := by
  intro k
  rw [sum_plane]
  exact (hA.good σ hσ).plane t k

theorem weight_ge {ι : Type} [Fintype ι] [DecidableEq ι] {v : Fin n → F} (g : ι → Fin n) (hg : Function.Injective g)
    (hv : ∀ i, v (g i) ≠ 0) : Fintype.card ι ≤ hammingNorm v := by
  rw [hammingNorm, ← Finset.card_univ, ← Finset.card_image_of_injective _ hg]
  refine Finset.card_le_card fun x hx => ?_
  obtain ⟨i, -, rfl⟩ := Finset.mem_image.1 hx
  simpa using hv i

theorem weight_le {ι : Type} [Fintype ι] [DecidableEq ι] {v : Fin n → F} (g : ι → Fin n)
    (hv : ∀ q, v q ≠ 0 → ∃ i, g i = q) : hammingNorm v ≤ Fintype.card ι := by
  rw [hammingNorm, ← Finset.card_univ]
  refine le_trans (Finset.card_le_card fun x hx => ?_) (Finset.card_image_le (f := g) (s := Finset.univ))
  simpa using hv x (by simpa using hx)

section
variable {hx hz : Rows F n} {f : A.I1 ≃ Fin n}

theorem code_commute (hA : A.HasBasis l N m) (hc : IsCodeOf A hx hz f) {v w : Fin n → F} (hv : IsCombination hx v)
    (hw : IsWord hx w) : ∑ q, v q * w q = 0 := by
  obtain ⟨y, hy⟩ := (hc.combX v).1 hv
  have hw := (hc.wordX w).1 hw
  rw [← Equiv.sum_comp f]
  have : ∀ j, v (f j) * w (f j) = ∑ i, y i * (A.D1 i j * w (f j)) := by
    intro j
    rw [show v (f j) = _ from hy j, Finset.sum_mul]
    exact Finset.sum_congr rfl fun _ _ => by ring
  simp only [this]
  rw [Finset.sum_comm]
  refine Finset.sum_eq_zero fun i _ => ?_
  rw [← Finset.mul_sum]
  exact (congrArg _ (hw i)).trans (mul_zero _)

theorem boundary_word (hA : A.HasBasis l N m) (hc : IsCodeOf A hx hz f) {v : Fin n → F} (hv : IsCombination hz v) :
    IsWord hx v := by
  obtain ⟨w, hw⟩ := (hc.combZ v).1 hv
  rw [hc.wordX]
  intro i
  simp only [hw, Finset.mul_sum, ← mul_assoc]
  rw [Finset.sum_comm]
  simp only [← Finset.sum_mul, hA.sq, zero_mul, Finset.sum_const_zero]

theorem coboundary_word (hA : A.HasBasis l N m) (hc : IsCodeOf A hx hz f) {v : Fin n → F} (hv : IsCombination hx v) :
    IsWord hz v := by
  obtain ⟨y, hy⟩ := (hc.combX v).1 hv
  rw [hc.wordZ]
  intro k
  simp only [hy, Finset.sum_mul, mul_assoc]
  rw [Finset.sum_comm]
  simp only [← Finset.mul_sum, hA.sq, mul_zero, Finset.sum_const_zero]

theorem isCombination_mem {M : Rows F n} {r : Fin n → F} (hr : r ∈ M) : IsCombination M r := by
  rw [isCombination_iff]; exact Submodule.subset_span hr

theorem nontrivialX_word (hA : A.HasBasis l N m) (hc : IsCodeOf A hx hz f) (v : Fin n → F) :
    IsNontrivialX hx hz v ↔ IsWord hz v ∧ ¬ IsCombination hx v := by
  refine and_congr_left fun _ => ⟨fun h r hr => ?_, fun h z hz' => ?_⟩
  · exact h r ⟨isCombination_mem hr, boundary_word hA hc (isCombination_mem hr)⟩
  · rw [isCombination_iff] at *
    have h1 := (mem_rowSpan_iff hz z).1 ((isCombination_iff hz z).1 hz'.1) v h
    simpa [dot] using h1

theorem nontrivialZ_word (hA : A.HasBasis l N m) (hc : IsCodeOf A hx hz f) (v : Fin n → F) :
    IsNontrivialX hz hx v ↔ IsWord hx v ∧ ¬ IsCombination hz v := by
  refine and_congr_left fun _ => ⟨fun h r hr => ?_, fun h z hz' => ?_⟩
  · exact h r ⟨isCombination_mem hr, coboundary_word hA hc (isCombination_mem hr)⟩
  · have h1 := (mem_rowSpan_iff hx z).1 ((isCombination_iff hx z).1 hz'.1) v h
    simpa [dot] using h1

theorem distance_x (hA : A.HasBasis l N m) (hc : IsCodeOf A hx hz f) (hl : l ≠ []) : IsXDistance hx hz N := by
  have lower : ∀ v, IsNontrivialX hx hz v → N ≤ hammingNorm v := by
    intro v hv
    rw [nontrivialX_word hA hc] at hv
    obtain ⟨h1, h2⟩ := hv
    rw [hc.wordZ] at h1
    rw [hc.combX] at h2
    obtain ⟨σ, hσ, h3⟩ : ∃ σ ∈ l, ∑ t, (v ∘ f) (σ.φ σ.s0 t) ≠ 0 := by
      by_contra h
      push Not at h
      exact h2 (hA.cocycles _ h1 h)
    have h4 : ∀ s, ∃ t, v (f (σ.φ s t)) ≠ 0 := by
      intro s
      rw [(hA.good σ hσ).moveLine _ h1 _ s] at h3
      by_contra h
      push Not at h
      exact h3 (Finset.sum_eq_zero fun t _ => h t)
    choose g hg using h4
    rw [← (hA.card σ hσ).1]
    exact weight_ge (fun s => f (σ.φ s (g s))) (fun s s' e => (σ.inj _ _ _ _ (f.injective e)).1) hg
  refine ⟨?_, ?_⟩
  · obtain ⟨σ, hσ⟩ := List.exists_mem_of_ne_nil l hl
    have hnt : IsNontrivialX hx hz (planeOf σ σ.t0 ∘ f.symm) := by
      rw [nontrivialX_word hA hc, hc.wordZ, hc.combX]
      have e : (planeOf σ σ.t0 ∘ f.symm : Fin n → F) ∘ f = planeOf σ σ.t0 := by funext i; simp
      rw [e]
      refine ⟨plane_cocycle hA hσ _, fun h => ?_⟩
      have := coboundary_pair hA hσ h σ.s0
      rw [plane_self] at this
      exact one_ne_zero this
    refine ⟨_, hnt, le_antisymm (lower _ hnt) ?_⟩
    rw [← (hA.card σ hσ).1]
    refine weight_le (fun s => f (σ.φ s σ.t0)) fun q hq => ?_
    by_contra h
    push Not at h
    refine hq ?_
    show planeOf σ σ.t0 (f.symm q) = 0
    rw [planeOf, if_neg]
    rintro ⟨s, e⟩
    exact h s (by rw [e]; simp)
  · rintro k ⟨v, hv, rfl⟩
    exact lower v hv

theorem distance_z (hA : A.HasBasis l N m) (hc : IsCodeOf A hx hz f) (hl : l ≠ []) : IsXDistance hz hx m := by
  have lower : ∀ v, IsNontrivialX hz hx v → m ≤ hammingNorm v := by
    intro v hv
    rw [nontrivialZ_word hA hc] at hv
    obtain ⟨h1, h2⟩ := hv
    rw [hc.wordX] at h1
    rw [hc.combZ] at h2
    obtain ⟨σ, hσ, h3⟩ : ∃ σ ∈ l, ∑ s, (v ∘ f) (σ.φ s σ.t0) ≠ 0 := by
      by_contra h
      push Not at h
      exact h2 (hA.cycles _ h1 h)
    have h4 : ∀ t, ∃ s, v (f (σ.φ s t)) ≠ 0 := by
      intro t
      rw [(hA.good σ hσ).movePlane _ h1 _ t] at h3
      by_contra h
      push Not at h
      exact h3 (Finset.sum_eq_zero fun s _ => h s)
    choose g hg using h4
    rw [← (hA.card σ hσ).2]
    exact weight_ge (fun t => f (σ.φ (g t) t)) (fun t t' e => (σ.inj _ _ _ _ (f.injective e)).2) hg
  refine ⟨?_, ?_⟩
  · obtain ⟨σ, hσ⟩ := List.exists_mem_of_ne_nil l hl
    have hnt : IsNontrivialX hz hx (lineOf σ σ.s0 ∘ f.symm) := by
      rw [nontrivialZ_word hA hc, hc.wordX, hc.combZ]
      have e : (lineOf σ σ.s0 ∘ f.symm : Fin n → F) ∘ f = lineOf σ σ.s0 := by funext i; simp
      rw [e]
      refine ⟨line_cycle hA hσ _, fun h => ?_⟩
      have := boundary_pair hA hσ h σ.t0
      rw [line_self] at this
      exact one_ne_zero this
    refine ⟨_, hnt, le_antisymm (lower _ hnt) ?_⟩
    rw [← (hA.card σ hσ).2]
    refine weight_le (fun t => f (σ.φ σ.s0 t)) fun q hq => ?_
    by_contra h
    push Not at h
    refine hq ?_
    show lineOf σ σ.s0 (f.symm q) = 0
    rw [lineOf, if_neg]
    rintro ⟨t, e⟩
    exact h t (by rw [e]; simp)
  · rintro k ⟨v, hv, rfl⟩
    exact lower v hv

/-- The pairings of a vector with one column of every array. -/
def pairing (l : List (Slab A.I1)) (f : A.I1 ≃ Fin n) : (Fin n → F) →ₗ[F] (Fin l.length → F) where
  toFun v k := ∑ s, v (f (l[k].φ s l[k].t0))
  map_add' v w := by funext k; simp [Finset.sum_add_distrib]
  map_smul' c v := by funext k; simp [Finset.mul_sum]

theorem dimension (hA : A.HasBasis l N m) (hc : IsCodeOf A hx hz f) : codeDim hx + codeDim hz = n + l.length := by
  have hker : ∀ v, IsWord hx v → pairing l f v = 0 → IsCombination hz v := by
    intro v h1 h2
    rw [hc.combZ]
    refine hA.cycles _ ((hc.wordX v).1 h1) fun σ hσ => ?_
    obtain ⟨k, hk, rfl⟩ := List.getElem_of_mem hσ
    exact congrFun h2 ⟨k, hk⟩
  let g : kernel hx →ₗ[F] (Fin l.length → F) := (pairing l f).domRestrict (kernel hx)
  have hsurj : LinearMap.range g = ⊤ := by
    rw [LinearMap.range_eq_top]
    intro c
    have hmem : ∀ k : Fin l.length, (lineOf l[k] l[k].s0 ∘ f.symm : Fin n → F) ∈ kernel hx := by
      intro k
      refine (hc.wordX _).2 ?_
      have e : (lineOf l[k] l[k].s0 ∘ f.symm : Fin n → F) ∘ f = lineOf l[k] l[k].s0 := by funext i; simp
      rw [e]
      exact line_cycle hA (List.getElem_mem _) _
    refine ⟨∑ k, c k • ⟨_, hmem k⟩, ?_⟩
    · rw [map_sum]
      funext j
      rw [Finset.sum_apply, Finset.sum_eq_single j]
      · rw [map_smul]
        show c j * ∑ s, (lineOf l[j] l[j].s0 ∘ f.symm) (f (l[j].φ s l[j].t0)) = c j
        simp only [Function.comp_apply, Equiv.symm_apply_apply]
        rw [line_self, mul_one]
      · intro k _ hk
        rw [map_smul]
        show c k * ∑ s, (lineOf l[k] l[k].s0 ∘ f.symm) (f (l[j].φ s l[j].t0)) = 0
        rw [Finset.sum_eq_zero, mul_zero]
        intro s _
        simp only [Function.comp_apply, Equiv.symm_apply_apply]
        rw [lineOf, if_neg]
        rintro ⟨t, e⟩
        have hp := List.pairwise_iff_getElem.1 hA.disj
        rcases lt_or_gt_of_ne (fun h => hk (Fin.ext h) : k.val ≠ j.val) with h | h
        · exact hp k.val j.val k.isLt j.isLt h _ _ _ _ e
        · exact hp j.val k.val j.isLt k.isLt h _ _ _ _ e.symm
      · simp
  have hk : Module.finrank F (LinearMap.ker g) = Module.finrank F (rowSpan hz) := by
    have hle : rowSpan hz ≤ kernel hx := by
      intro v hv
      exact boundary_word hA hc ((isCombination_iff hz v).2 hv)
    have e : LinearMap.ker g = (rowSpan hz).comap (kernel hx).subtype := by
      ext ⟨v, hv⟩
      rw [LinearMap.mem_ker, Submodule.mem_comap]
      constructor
      · intro h
        exact (isCombination_iff hz v).1 (hker v hv h)
      · intro h
        have hb := (hc.combZ v).1 ((isCombination_iff hz v).2 h)
        funext k
        exact boundary_pair hA (List.getElem_mem k.isLt) hb _
    rw [e]
    exact (Submodule.comapSubtypeEquivOfLe hle).finrank_eq
  have h1 := LinearMap.finrank_range_add_finrank_ker g
  rw [hsurj, finrank_top, Module.finrank_fin_fun, hk, finrank_rowSpan] at h1
  have h2 := Props.codeDim_add_rank hz
  rw [codeDim_eq hx]
  omega

/-- Arrays of lines and hyperplanes determine the parameters of the code. -/
theorem parameters (hA : A.HasBasis l N m) (hc : IsCodeOf A hx hz f) (hl : l ≠ []) :
    HasParameters hx hz l.length N m where
  commute x hx' z hz' := code_commute hA hc (isCombination_mem hx') (boundary_word hA hc (isCombination_mem hz'))
  dimension := dimension hA hc
  distance_x := distance_x hA hc hl
  distance_z := distance_z hA hc hl

end

end Cx

end QLDPC
