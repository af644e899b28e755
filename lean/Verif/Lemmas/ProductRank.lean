import Verif.Lemmas.Product

/-! # Ranks of hypergraph products -/

namespace QLDPC

open Spec

variable {F : Type} [Field F] [DecidableEq F] {n m : ℕ}

/-- rank and left kernel of a matrix given by a family of rows -/
theorem rank_of_family {ι : Type} [Fintype ι] {M : Rows F n} (v : ι → Fin n → F) (h : ∀ w, w ∈ M ↔ ∃ i, v i = w)
    (K : Submodule F (ι → F)) (hK : ∀ c, c ∈ K ↔ ∑ i, c i • v i = 0) :
    rank M + Module.finrank F K = Fintype.card ι := by
  have h1 := LinearMap.finrank_range_add_finrank_ker (Fintype.linearCombination F v)
  rw [Fintype.range_linearCombination] at h1
  have h2 : Submodule.span F (Set.range v) = rowSpan M := by
    rw [rowSpan]; congr 1; ext w; simp [h]
  have h3 : LinearMap.ker (Fintype.linearCombination F v) = K := by
    ext c; rw [hK, LinearMap.mem_ker, Fintype.linearCombination_apply]
  rw [h2, h3, finrank_rowSpan] at h1
  rw [h1]; simp

theorem mem_kernel_iff (M : Rows F n) (x : Fin n → F) : x ∈ kernel M ↔ ∀ r ∈ M, dot r x = 0 := Iff.rfl

theorem mem_kernel_transpose (A : Rows F n) (c : Fin A.length → F) :
    c ∈ kernel (transposeRows id A) ↔ ∀ p, ∑ i, A.get i p * c i = 0 := by
  rw [mem_kernel_iff]
  simp [transposeRows, dot]

theorem rank_transposeRows (A : Rows F n) : rank (transposeRows id A) = rank A := by
  have h1 := rank_of_family (M := A) A.get (fun w => List.mem_iff_get) (kernel (transposeRows id A)) (fun c => by
    rw [mem_kernel_transpose, funext_iff]
    simp [mul_comm])
  have h2 := finrank_kernel (transposeRows id A)
  rw [Fintype.card_fin] at h1
  omega

theorem mem_rowSpan_kron_nullSpace (A : Rows F n) (B : Rows F m) (w : Fin (n * m) → F) :
    w ∈ rowSpan (kron (nullSpace A) (nullSpace B)) ↔
      (∀ j, ∀ a ∈ A, ∑ i, a i * w (flat i j) = 0) ∧ (∀ i, ∀ b ∈ B, ∑ j, b j * w (flat i j) = 0) := by
  rw [mem_rowSpan_kron, rowSpan_nullSpace, rowSpan_nullSpace]; rfl

theorem finrank_kron_nullSpace (A : Rows F n) (B : Rows F m) :
    Module.finrank F (rowSpan (kron (nullSpace A) (nullSpace B))) = (n - rank A) * (m - rank B) := by
  have hr : ∀ {k : ℕ} (M : Rows F k), rank (nullSpace M) = k - rank M := by
    intro k M
    have h1 := finrank_kernel M
    rw [← finrank_rowSpan, rowSpan_nullSpace]; omega
  rw [finrank_rowSpan, rank_kron, hr, hr]

theorem sum_smul_append {ι : Type} [Fintype ι] (c : ι → F) (f : ι → Fin n → F) (g : ι → Fin m → F) :
    ∑ i, c i • Fin.append (f i) (g i) = 0 ↔ (∑ i, c i • f i = 0 ∧ ∑ i, c i • g i = 0) := by
  constructor
  · intro h
    constructor
    · funext p
      have := congrFun h (Fin.castAdd m p)
      simpa using this
    · funext p
      have := congrFun h (Fin.natAdd n p)
      simpa using this
  · rintro ⟨h1, h2⟩
    funext p
    refine Fin.addCases (fun p => ?_) (fun p => ?_) p
    · have := congrFun h1 p; simpa using this
    · have := congrFun h2 p; simpa using this

theorem forall_flat {P : Fin (n * m) → Prop} : (∀ k, P k) ↔ ∀ i j, P (flat i j) :=
  ⟨fun h i j => h _, fun h k => by rw [← flat_div_mod k]; exact h _ _⟩

theorem rank_hgpX (A : Rows F n) (B : Rows F m) :
    rank (hgpX id A B) + (A.length - rank A) * (m - rank B) = A.length * m := by
  have h := rank_of_family (M := hgpX id A B) (ι := Fin (A.length * m))
    (fun k => hgpRowX id A B k.divNat k.modNat)
    (fun w => by
      rw [mem_hgpX]
      constructor
      · rintro ⟨i, j, rfl⟩; exact ⟨flat i j, by rw [divNat_flat, modNat_flat]⟩
      · rintro ⟨k, rfl⟩; exact ⟨_, _, rfl⟩)
    (rowSpan (kron (nullSpace (transposeRows id A)) (nullSpace B)))
    (fun c => by
      rw [mem_rowSpan_kron_nullSpace]
      simp only [hgpRowX]
      rw [sum_smul_append, funext_iff, funext_iff, forall_flat, forall_flat]
      have e1 : ∀ p q, (∑ k, c k • kronRow (A.get k.divNat) (unitRow F k.modNat)) (flat p q) =
          ∑ i, A.get i p * c (flat i q) := by
        intro p q
        rw [Finset.sum_apply, sum_flat]
        simp only [Pi.smul_apply, kronRow_flat, divNat_flat, modNat_flat, unitRow, smul_eq_mul]
        refine Finset.sum_congr rfl fun i _ => ?_
        rw [Finset.sum_eq_single q]
        · simp; ring
        · intro j _ hj; rw [if_neg (Ne.symm hj)]; ring
        · simp
      have e2 : ∀ i l, (∑ k, c k • kronRow (unitRow F k.divNat) (fun l => id (B.get l k.modNat))) (flat i l) =
          ∑ j, B.get l j * c (flat i j) := by
        intro i l
        rw [Finset.sum_apply, sum_flat]
        simp only [Pi.smul_apply, kronRow_flat, divNat_flat, modNat_flat, unitRow, smul_eq_mul, id]
        rw [Finset.sum_eq_single i]
        · exact Finset.sum_congr rfl fun j _ => by simp; ring
        · intro j _ hj; exact Finset.sum_eq_zero fun _ _ => by rw [if_neg (Ne.symm hj)]; ring
        · simp
      simp only [e1, e2]
      refine Iff.symm ⟨?_, ?_⟩
      · rintro ⟨h1, h2⟩
        refine ⟨fun j a ha => ?_, fun i b hb => ?_⟩
        · obtain ⟨p, -, rfl⟩ := List.mem_map.1 ha
          simpa using h1 p j
        · obtain ⟨l, rfl⟩ := List.mem_iff_get.1 hb
          exact h2 i l
      · rintro ⟨h1, h2⟩
        refine ⟨fun p q => ?_, fun i l => h2 i _ (List.get_mem _ _)⟩
        simpa using h1 q _ (List.mem_map.2 ⟨p, List.mem_finRange p, rfl⟩))
  rwa [finrank_kron_nullSpace, Fintype.card_fin, rank_transposeRows] at h

theorem rank_hgpZ (A : Rows F n) (B : Rows F m) :
    rank (hgpZ id A B) + (n - rank A) * (B.length - rank B) = n * B.length := by
  have h := rank_of_family (M := hgpZ id A B) (ι := Fin (n * B.length))
    (fun k => hgpRowZ id A B k.divNat k.modNat)
    (fun w => by
      rw [mem_hgpZ]
      constructor
      · rintro ⟨i, j, rfl⟩; exact ⟨flat i j, by rw [divNat_flat, modNat_flat]⟩
      · rintro ⟨k, rfl⟩; exact ⟨_, _, rfl⟩)
    (rowSpan (kron (nullSpace A) (nullSpace (transposeRows id B))))
    (fun c => by
      rw [mem_rowSpan_kron_nullSpace]
      simp only [hgpRowZ]
      rw [sum_smul_append, funext_iff, funext_iff, forall_flat, forall_flat]
      have e1 : ∀ p q, (∑ k, c k • fun p => - kronRow (unitRow F k.divNat) (B.get k.modNat) p) (flat p q) =
          - ∑ l, B.get l q * c (flat p l) := by
        intro p q
        rw [Finset.sum_apply, sum_flat]
        simp only [Pi.smul_apply, kronRow_flat, divNat_flat, modNat_flat, unitRow, smul_eq_mul]
        rw [Finset.sum_eq_single p, ← Finset.sum_neg_distrib]
        · exact Finset.sum_congr rfl fun j _ => by simp; ring
        · intro j _ hj; exact Finset.sum_eq_zero fun _ _ => by rw [if_neg (Ne.symm hj)]; ring
        · simp
      have e2 : ∀ i l, (∑ k, c k • kronRow (fun i => id (A.get i k.divNat)) (unitRow F k.modNat)) (flat i l) =
          ∑ k, A.get i k * c (flat k l) := by
        intro i l
        rw [Finset.sum_apply, sum_flat]
        simp only [Pi.smul_apply, kronRow_flat, divNat_flat, modNat_flat, unitRow, smul_eq_mul, id]
        refine Finset.sum_congr rfl fun k _ => ?_
        rw [Finset.sum_eq_single l]
        · simp; ring
        · intro j _ hj; rw [if_neg (Ne.symm hj)]; ring
        · simp
      simp only [e1, e2]
      refine Iff.symm ⟨?_, ?_⟩
      · rintro ⟨h1, h2⟩
        refine ⟨fun l a ha => ?_, fun i b hb => ?_⟩
        · obtain ⟨p, rfl⟩ := List.mem_iff_get.1 ha
          exact h2 p l
        · obtain ⟨q, -, rfl⟩ := List.mem_map.1 hb
          simpa using h1 i q
      · rintro ⟨h1, h2⟩
        refine ⟨fun p q => ?_, fun i l => h1 l _ (List.get_mem _ _)⟩
        have := h2 p _ (List.mem_map.2 ⟨q, List.mem_finRange q, rfl⟩)
        simpa using this)
  rwa [finrank_kron_nullSpace, Fintype.card_fin, rank_transposeRows] at h

end QLDPC
