import Verif.Lemmas.GeneralizedSurface
import Mathlib.Algebra.Field.ZMod

/-! # C88: surface and toric codes on hypercubic lattices -/

namespace QLDPC.Props

open QLDPC QLDPC.Spec

variable {F : Type} [Field F] [DecidableEq F]

section
variable {n : ℕ} {H : Rows F n}

private theorem row_exact (hw : ∀ w, IsWord H w ↔ ∃ x : F, w = fun _ => x) (v : Fin n → F) (hv : ∑ j, v j = 0) :
    ∃ c : Fin H.length → F, ∀ j, v j = ∑ i, c i * H[i] j := by
  have h : v ∈ rowSpan H := by
    rw [mem_rowSpan_iff]
    intro x hx
    obtain ⟨a, rfl⟩ := (hw x).1 hx
    rw [dot, ← Finset.sum_mul, hv, zero_mul]
  obtain ⟨c, hc⟩ := (mem_rowSpan_iff_exists H v).1 h
  refine ⟨c, fun j => ?_⟩
  rw [hc, Finset.sum_apply]
  rfl

private theorem row_sum (hw : ∀ w, IsWord H w ↔ ∃ x : F, w = fun _ => x) (i : Fin H.length) : ∑ j, H[i] j = 0 := by
  have := (hw fun _ => 1).2 ⟨1, rfl⟩ H[i] (List.getElem_mem _)
  simpa using this

private theorem linkOk (hw : ∀ w, IsWord H w ↔ ∃ x : F, w = fun _ => x) : Cx.LinkOk (linkCx H) where
  aug i := row_sum hw i
  exact v hv := by
    obtain ⟨c, hc⟩ := row_exact hw v hv
    exact ⟨c, fun j => (hc j).trans (Finset.sum_congr rfl fun _ _ => mul_comm _ _)⟩

/-- The code itself: one line that is crossed by the points. -/
private def baseSlab (H : Rows F n) (hn : 0 < n) : Slab (baseCx H).I1 where
  S := Unit
  T := Fin n
  φ _ t := t
  s0 := ()
  t0 := ⟨0, hn⟩
  inj _ _ _ _ h := ⟨rfl, h⟩

private theorem base_basis (hn : 0 < n) (hw : ∀ w, IsWord H w ↔ ∃ x : F, w = fun _ => x) :
    (baseCx H).HasBasis [baseSlab H hn] 1 n := by
  have hcyc : ∀ z, (baseCx H).IsCycle z → ∃ x : F, z = fun _ => x := by
    intro z hz
    refine (hw z).1 fun r hr => ?_
    obtain ⟨i, hi, rfl⟩ := List.getElem_of_mem hr
    exact hz ⟨i, hi⟩
  refine ⟨fun _ k => k.elim0, ?_, ?_, List.pairwise_singleton _ _, ?_, ?_⟩
  · intro σ hσ
    obtain rfl := List.mem_singleton.1 hσ
    refine ⟨fun _ i => row_sum hw i, fun _ k => k.elim0, fun x _ s s' => rfl, fun z hz t t' => ?_⟩
    obtain ⟨x, rfl⟩ := hcyc z hz
    rfl
  · intro σ hσ
    obtain rfl := List.mem_singleton.1 hσ
    exact ⟨Fintype.card_unit, Fintype.card_fin n⟩
  · intro z hz h0
    obtain ⟨x, rfl⟩ := hcyc z hz
    have h1 := h0 _ (List.mem_singleton.2 rfl)
    have h2 : ∑ _s : Unit, x = 0 := h1
    have h3 : x = 0 := by simpa using h2
    exact ⟨fun _ => 0, fun j => by rw [h3]; simp⟩
  · intro x _ h0
    have h1 : ∑ j : Fin n, x j = 0 := h0 _ (List.mem_singleton.2 rfl)
    exact row_exact hw x h1

private theorem transpose_entry (i : Fin H.length) (j : Fin n) (h : j.val < (transposeRows id H).length) :
    ((transposeRows id H)[j.val]'h) i = H[i] j := by
  have e : (transposeRows id H)[j.val]? = some fun i : Fin H.length => H.get i j := by simp [transposeRows]
  obtain ⟨_, e⟩ := List.getElem?_eq_some_iff.1 e
  rw [e]
  rfl

private theorem transpose_word (w : Fin H.length → F) :
    IsWord (transposeRows id H) w ↔ ∀ j, ∑ i, w i * H[i] j = 0 := by
  show w ∈ kernel (transposeRows id H) ↔ _
  rw [mem_kernel_transposeRows]
  exact forall_congr' fun j => by
    rw [Finset.sum_congr rfl fun i _ => mul_comm (w i) _]; rfl

end

/-- **C88**: the code on a hypercubic lattice with open boundaries.  For all sizes, all dimensions of the lattice and
all fields, the constructor succeeds; X checks commute with Z checks; there is one logical qudit; and the distances
recorded by the constructor are the least weights of nontrivial logical operators. -/
theorem C88_surface (size dim : ℕ) (hs : 1 ≤ size) (hd : 2 ≤ dim) :
    ∃ code, generalizedSurfaceCode F size dim false = some code ∧
      code.1 = size ^ dim + (dim - 1) * (size - 1) ^ 2 * size ^ (dim - 2) ∧
      HasParameters code.2.hx code.2.hz 1 code.2.distX code.2.distZ ∧
      code.2.distX = size ^ (dim - 1) ∧ code.2.distZ = size := by
  obtain ⟨c, hc, hw, hdim, -⟩ := C30_repetition (F := F) size hs
  have hlen := repetition_length hc
  have hinj : ∀ w : Fin c.matrix.length → F, (∀ j, ∑ i, w i * c.matrix[i] j = 0) → ∀ i, w i = 0 := by
    have ht := codeDim_transpose c.matrix
    have h0 : codeDim (transposeRows id c.matrix) = 0 := by omega
    rw [codeDim_zero_iff] at h0
    intro w h i
    exact congrFun (h0 w ((transpose_word w).2 h)) i
  let P : ℕ → Cx F → Prop := fun k A => (∃ l, A.HasBasis l (size ^ k) size ∧ l.length = 1) ∧
    (∀ y : A.I0 → F, (∀ j, ∑ i, y i * A.D1 i j = 0) → ∀ i, y i = 0) ∧ Fintype.card A.I0 = (size - 1) * size ^ k ∧
    Fintype.card A.I1 = size ^ (k + 1) + k * (size - 1) ^ 2 * size ^ (k - 1)
  obtain ⟨code, h1, h2, h3, A, ⟨⟨l, hb, hl⟩, -, -, hcard⟩, h4, f, hf⟩ := lattice_code (periodic := false) hd hc P
    ⟨⟨[baseSlab c.matrix hs], by rw [pow_zero]; exact base_basis hs hw, rfl⟩, hinj, by
      show Fintype.card (Fin c.matrix.length) = _
      rw [Fintype.card_fin, hlen, pow_zero, mul_one], by
      show Fintype.card (Fin size) = _
      rw [Fintype.card_fin]; simp⟩ (by
    rintro k A ⟨⟨l, hb, hl⟩, hA0, c0, c1⟩
    obtain ⟨q1, q2⟩ := Cx.basis_line (linkOk hw) (⟨0, hs⟩ : Fin size)
      (fun w h => hinj w fun j => (Finset.sum_congr rfl fun _ _ => mul_comm _ _).trans (h j)) hb hA0
    have j0 : Fintype.card (linkCx c.matrix).J0 = size := Fintype.card_fin size
    have j1 : Fintype.card (linkCx c.matrix).J1 = size - 1 := (Fintype.card_fin _).trans hlen
    rw [j0, ← pow_succ] at q1
    refine ⟨⟨_, q1, by rw [List.length_map, hl]⟩, q2, ?_, ?_⟩
    · show Fintype.card (A.I0 × (linkCx c.matrix).J0) = _
      rw [Fintype.card_prod, c0, j0, pow_succ, mul_assoc]
    · show Fintype.card ((A.I1 × (linkCx c.matrix).J0) ⊕ (A.I0 × (linkCx c.matrix).J1)) = _
      rw [Fintype.card_sum, Fintype.card_prod, Fintype.card_prod, c0, c1, j0, j1]
      cases k with
      | zero => simp only [pow_zero, zero_mul, Nat.add_sub_cancel]; ring
      | succ k => simp only [Nat.add_sub_cancel]; ring)
  refine ⟨code, h1, ?_, ?_, h2, h3⟩
  · rw [h4, hcard, show dim - 1 + 1 = dim by omega, show dim - 1 - 1 = dim - 2 by omega]
  · have := Cx.parameters hb hf (by rw [← List.length_pos_iff]; omega)
    rw [hl] at this
    rw [h2, h3]
    exact this

/-- **C88**: the code on a hypercubic lattice with periodic boundaries.  For all sizes from 2, all dimensions of the
lattice and all fields, the constructor succeeds; X checks commute with Z checks; there are as many logical qudits as
directions; and the distances recorded by the constructor are the least weights of nontrivial logical operators. -/
theorem C88_toric_partial (size dim : ℕ) (hs : 2 ≤ size) (hd : 2 ≤ dim) :
    ∃ code, generalizedSurfaceCode F size dim true = some code ∧ code.1 = dim * size ^ dim ∧
      HasParameters code.2.hx code.2.hz dim code.2.distX code.2.distZ ∧
      code.2.distX = size ^ (dim - 1) ∧ code.2.distZ = size := by
  obtain ⟨hw, hdim, -⟩ := C30_ring_partial (F := F) size hs
  set H := (ringCode F size).matrix with hH
  have hlen : H.length = size := by rw [hH]; simp [ringCode]
  have hlen0 : 0 < H.length := by omega
  have hker : ∀ w : Fin H.length → F, (∀ j, ∑ i, H[i] j * w i = 0) → ∀ a b, w a = w b := by
    intro w h a b
    obtain ⟨x, rfl⟩ := (isWord_ring_transpose hs w).1
      ((transpose_word w).2 fun j => (Finset.sum_congr rfl fun _ _ => mul_comm _ _).trans (h j))
    rfl
  have hone : ∀ j, ∑ i : Fin H.length, H[i] j = 0 := by
    intro j
    have := (transpose_word (H := H) fun _ => 1).1 ((isWord_ring_transpose hs _).2 ⟨1, rfl⟩) j
    simpa using this
  have hco : ∀ β : Fin H.length → F, ∑ i, β i = 0 → ∃ η : Fin size → F, ∀ i, β i = ∑ j, η j * H[i] j := by
    intro β hβ
    have hw' : ∀ w, IsWord (transposeRows id H) w ↔ ∃ x : F, w = fun _ => x := isWord_ring_transpose hs
    obtain ⟨c, hc⟩ := row_exact hw' β hβ
    have hl : (transposeRows id H).length = size := by simp [transposeRows]
    refine ⟨fun j => c ⟨j, by rw [hl]; exact j.isLt⟩, fun i => ?_⟩
    rw [hc, ← Equiv.sum_comp (finCongr hl.symm)]
    refine Finset.sum_congr rfl fun j _ => ?_
    have e : ((transposeRows id H)[j.val]'(by rw [hl]; exact j.isLt)) i = H[i] j := transpose_entry i j _
    exact congrArg (c ⟨j, by rw [hl]; exact j.isLt⟩ * ·) e
  let P : ℕ → Cx F → Prop := fun k A => (∃ l, A.HasBasis l (size ^ k) size ∧ l.length = k + 1) ∧ Nonempty A.I0 ∧
    (∀ j, ∑ i, A.D1 i j = 0) ∧
    (∀ v : A.I0 → F, ∑ i, v i = 0 → ∃ γ : A.I1 → F, ∀ i, v i = ∑ j, A.D1 i j * γ j) ∧
    Fintype.card A.I0 = size ^ (k + 1) ∧ Fintype.card A.I1 = (k + 1) * size ^ (k + 1)
  obtain ⟨code, h1, h2, h3, A, ⟨⟨l, hb, hl⟩, -, -, -, -, hcard⟩, h4, f, hf⟩ := lattice_code (periodic := true) hd
    (base := ringCode F size) rfl P ⟨⟨[baseSlab H (by omega)], by rw [pow_zero]; exact base_basis (by omega) hw, rfl⟩,
      ⟨(⟨0, hlen0⟩ : Fin H.length)⟩, hone, fun v hv => by
        obtain ⟨η, hη⟩ := hco v hv
        exact ⟨η, fun i => (hη i).trans (Finset.sum_congr rfl fun _ _ => mul_comm _ _)⟩, by
      show Fintype.card (Fin H.length) = _
      rw [Fintype.card_fin, hlen]; simp, by
      show Fintype.card (Fin size) = _
      rw [Fintype.card_fin]; simp⟩ (by
    rintro k A ⟨⟨l, hb, hl⟩, ⟨i0⟩, hA0, hA1, c0, c1⟩
    have j0 : Fintype.card (linkCx H).J0 = size := Fintype.card_fin size
    have j1 : Fintype.card (linkCx H).J1 = size := (Fintype.card_fin _).trans hlen
    obtain ⟨q1, q2, q3, q4⟩ := Cx.basis_ring (linkOk hw) i0 (⟨0, by omega⟩ : Fin size) (⟨0, hlen0⟩ : Fin H.length)
      hker hone hco hb hA0 hA1 j1 (by rw [c0, j0, pow_succ])
    rw [j0, ← pow_succ] at q1 q4
    rw [← pow_succ] at q4
    refine ⟨⟨_, q1, by rw [List.length_append, List.length_map, hl]; rfl⟩, ⟨(i0, (⟨0, by omega⟩ : Fin size))⟩, q2, q3,
      q4, ?_⟩
    show Fintype.card ((A.I1 × (linkCx H).J0) ⊕ (A.I0 × (linkCx H).J1)) = _
    rw [Fintype.card_sum, Fintype.card_prod, Fintype.card_prod, c0, c1, j0, j1]
    ring)
  refine ⟨code, h1, ?_, ?_, h2, h3⟩
  · rw [h4, hcard, show dim - 1 + 1 = dim by omega]
  · have := Cx.parameters hb hf (by rw [← List.length_pos_iff]; omega)
    rw [hl, show dim - 1 + 1 = dim by omega] at this
    rw [h2, h3]
    exact this

/-- **C88**: fewer than two dimensions are refused. -/
theorem C88_dimension (size dim : ℕ) (periodic : Bool) (hd : dim < 2) :
    generalizedSurfaceCode F size dim periodic = none := by
  rw [generalizedSurfaceCode, if_pos hd]

example : (generalizedSurfaceCode (ZMod 3) 2 3 false).map (fun c => (c.1, c.2.hx.length, c.2.hz.length, c.2.distX)) =
    some (12, 4, 9, 4) := by decide +kernel

/-- **C88** fails for periodic lattices of size 1: the code has no nontrivial logical operators, yet distances are
recorded. -/
theorem C88_toric_disagreement : ∃ code, generalizedSurfaceCode (ZMod 2) 1 2 true = some code ∧ code.2.distX = 1 ∧
    code.2.distZ = 1 ∧ (∀ v, ¬ IsNontrivialX code.2.hx code.2.hz v) ∧ codeDim code.2.hx + codeDim code.2.hz = code.1 := by
  obtain ⟨⟨N, hx, hz, dx, dz⟩, hc⟩ : ∃ code, generalizedSurfaceCode (ZMod 2) 1 2 true = some code :=
    Option.isSome_iff_exists.1 (by decide +kernel)
  have h : (generalizedSurfaceCode (ZMod 2) 1 2 true).map
      (fun c => (c.1, c.2.hx.map List.ofFn, c.2.hz.map List.ofFn, c.2.distX, c.2.distZ)) =
      some (2, [[1, 1]], [[1, 1]], 1, 1) := by decide +kernel
  rw [hc] at h
  simp only [Option.map_some, Option.some.injEq, Prod.mk.injEq] at h
  obtain ⟨rfl, h1, h2, rfl, rfl⟩ := h
  have key : ∀ l : Rows (ZMod 2) 2, l.map List.ofFn = [[1, 1]] → l = [![1, 1]] := by
    intro l hl
    have : l.map List.ofFn = [![(1 : ZMod 2), 1]].map List.ofFn := by rw [hl]; rfl
    exact List.map_injective_iff.2 List.ofFn_injective this
  obtain rfl := key hx h1
  obtain rfl := key hz h2
  refine ⟨_, hc, rfl, rfl, fun v hv => ?_, ?_⟩
  · have hstab : IsStabX [![(1 : ZMod 2), 1]] [![1, 1]] ![1, 1] := by
      refine ⟨⟨fun _ => 1, by simp⟩, fun r hr => ?_⟩
      obtain rfl := List.mem_singleton.1 hr
      decide
    have h3 := hv.1 _ hstab
    refine hv.2 ⟨fun _ => v 0, ?_⟩
    revert h3
    generalize v = v
    revert v
    decide
  · have hr : rank [![(1 : ZMod 2), 1]] = 1 := by decide +kernel
    have := codeDim_add_rank [![(1 : ZMod 2), 1]]
    simp only at this ⊢
    omega

section AxiomCheck
#print axioms C88_surface
#print axioms C88_toric_partial
#print axioms C88_dimension
#print axioms C88_toric_disagreement
end AxiomCheck

/-! ### Instances of the theorems: concrete cases meet the hypotheses -/

example := C88_surface (F := ZMod 2) 3 3 (by decide) (by decide)
example := C88_toric_partial (F := ZMod 2) 3 3 (by decide) (by decide)
example := C88_dimension (F := ZMod 2) 3 1 true (by decide)

end QLDPC.Props
