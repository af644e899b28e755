import Verif.Lemmas.ProductRank
import Verif.Lemmas.CssParams

/-!
# Operators of product codes and words of the classical codes
-/

namespace QLDPC

open QLDPC.Spec

set_option linter.unusedSectionVars false

variable {F : Type} [Field F] [DecidableEq F] {n m : ℕ}

/-- A vector is no heavier than another with a nonzero entry in the fibre of each of its nonzero entries. -/
theorem hammingNorm_le_of_fibres {N M : ℕ} {w : Fin M → F} {x : Fin N → F} (f : Fin N → Option (Fin M))
    (h : ∀ j, w j ≠ 0 → ∃ k, f k = some j ∧ x k ≠ 0) : hammingNorm w ≤ hammingNorm x := by
  unfold hammingNorm
  have hs : (Finset.univ.filter fun j => w j ≠ 0).image some ⊆ (Finset.univ.filter fun k => x k ≠ 0).image f := by
    intro o ho
    obtain ⟨j, hj, rfl⟩ := Finset.mem_image.1 ho
    obtain ⟨k, hk, hx⟩ := h j (Finset.mem_filter.1 hj).2
    exact Finset.mem_image.2 ⟨k, by simp [hx], hk⟩
  calc _ = ((Finset.univ.filter fun j => w j ≠ 0).image some).card :=
        (Finset.card_image_of_injective _ (Option.some_injective _)).symm
    _ ≤ _ := Finset.card_le_card hs
    _ ≤ _ := Finset.card_image_le

/-- first and second sector of a vector on the qudits of a hypergraph product -/
def secA {a b : ℕ} (x : Fin (n * m + a * b) → F) (i : Fin n) (j : Fin m) : F := x (Fin.castAdd _ (flat i j))

@[inherit_doc secA]
def secB {a b : ℕ} (x : Fin (n * m + a * b) → F) (k : Fin a) (l : Fin b) : F := x (Fin.natAdd _ (flat k l))

theorem dot_secA {a b : ℕ} (x : Fin (n * m + a * b) → F) (u : Fin n → F) (v : Fin m → F) :
    dot (Fin.append (kronRow u v) 0) x = ∑ i, ∑ j, u i * v j * secA x i j := by
  unfold dot secA
  rw [Fin.sum_univ_add]
  simp only [Fin.append_left, Fin.append_right, Pi.zero_apply, zero_mul, Finset.sum_const_zero, add_zero]
  rw [sum_flat]
  simp only [kronRow_flat]

theorem dot_secB {a b : ℕ} (x : Fin (n * m + a * b) → F) (u : Fin a → F) (v : Fin b → F) :
    dot (Fin.append 0 (kronRow u v)) x = ∑ i, ∑ j, u i * v j * secB x i j := by
  unfold dot secB
  rw [Fin.sum_univ_add]
  simp only [Fin.append_left, Fin.append_right, Pi.zero_apply, zero_mul, Finset.sum_const_zero, zero_add]
  rw [sum_flat]
  simp only [kronRow_flat]

theorem mem_kernel_transposeRows (A : Rows F n) (u : Fin A.length → F) :
    u ∈ kernel (transposeRows id A) ↔ ∀ k, ∑ i, A.get i k * u i = 0 := by
  constructor
  · intro h k
    exact h _ (List.mem_map.2 ⟨k, List.mem_finRange k, rfl⟩)
  · intro h r hr
    obtain ⟨k, -, rfl⟩ := List.mem_map.1 hr
    exact h k

variable {A : Rows F n} {B : Rows F m}

/-- Words of `A` times checks of `B` are products of Z checks. -/
theorem word_check_mem {u : Fin n → F} (hu : u ∈ kernel A) (l : Fin B.length) :
    Fin.append (kronRow u (B.get l)) 0 ∈ rowSpan (hgpZ id A B) := by
  have : Fin.append (kronRow u (B.get l)) 0 = ∑ k, (- u k) • hgpRowZ id A B k l := by
    funext p
    rw [Finset.sum_apply]
    refine Fin.addCases (fun p => ?_) (fun p => ?_) p
    · simp only [hgpRowZ, Fin.append_left, Pi.smul_apply, smul_eq_mul, neg_mul_neg]
      rw [← flat_div_mod p]
      simp only [kronRow_flat, unitRow]
      rw [Finset.sum_eq_single p.divNat] <;> simp +contextual [eq_comm]
    · simp only [hgpRowZ, Fin.append_right, Pi.smul_apply, smul_eq_mul, Pi.zero_apply, id]
      rw [← flat_div_mod p]
      simp only [kronRow_flat, ← mul_assoc, neg_mul]
      rw [Finset.sum_neg_distrib, ← Finset.sum_mul]
      have h := hu (A.get p.divNat) (List.get_mem _ _)
      unfold dot at h
      rw [Finset.sum_congr rfl fun k _ => mul_comm (u k) _, h, zero_mul, neg_zero]
  rw [this]
  exact Submodule.sum_mem _ fun k _ => Submodule.smul_mem _ _ (subset_rowSpan ((mem_hgpZ id _ _ _).2 ⟨k, l, rfl⟩))

/-- Columns of `A` times words of `Bᵀ` are products of Z checks. -/
theorem check_word_mem {v : Fin B.length → F} (hv : v ∈ kernel (transposeRows id B)) (k : Fin n) :
    Fin.append 0 (kronRow (fun i => A.get i k) v) ∈ rowSpan (hgpZ id A B) := by
  rw [mem_kernel_transposeRows] at hv
  have : Fin.append 0 (kronRow (fun i => A.get i k) v) = ∑ l, v l • hgpRowZ id A B k l := by
    funext p
    rw [Finset.sum_apply]
    refine Fin.addCases (fun p => ?_) (fun p => ?_) p
    · simp only [hgpRowZ, Fin.append_left, Pi.smul_apply, smul_eq_mul, Pi.zero_apply]
      rw [← flat_div_mod p]
      simp only [kronRow_flat, mul_neg]
      rw [Finset.sum_neg_distrib, eq_comm, neg_eq_zero,
        Finset.sum_congr rfl fun l _ => mul_left_comm (v l) _ _, ← Finset.mul_sum,
        Finset.sum_congr rfl fun l _ => mul_comm (v l) _, hv, mul_zero]
    · simp only [hgpRowZ, Fin.append_right, Pi.smul_apply, smul_eq_mul, id]
      rw [← flat_div_mod p]
      simp only [kronRow_flat, unitRow]
      rw [Finset.sum_eq_single p.modNat] <;> simp +contextual [eq_comm, mul_comm]
  rw [this]
  exact Submodule.sum_mem _ fun l _ => Submodule.smul_mem _ _ (subset_rowSpan ((mem_hgpZ id _ _ _).2 ⟨k, l, rfl⟩))

/-- Checks of `A` times words of `B` are products of X checks. -/
theorem check_word_mem' {v : Fin m → F} (hv : v ∈ kernel B) (i : Fin A.length) :
    Fin.append (kronRow (A.get i) v) 0 ∈ rowSpan (hgpX id A B) := by
  have : Fin.append (kronRow (A.get i) v) 0 = ∑ j, v j • hgpRowX id A B i j := by
    funext p
    rw [Finset.sum_apply]
    refine Fin.addCases (fun p => ?_) (fun p => ?_) p
    · simp only [hgpRowX, Fin.append_left, Pi.smul_apply, smul_eq_mul]
      rw [← flat_div_mod p]
      simp only [kronRow_flat, unitRow]
      rw [Finset.sum_eq_single p.modNat] <;> simp +contextual [eq_comm, mul_comm]
    · simp only [hgpRowX, Fin.append_right, Pi.smul_apply, smul_eq_mul, Pi.zero_apply, id]
      rw [← flat_div_mod p]
      simp only [kronRow_flat]
      have h := hv (B.get p.modNat) (List.get_mem _ _)
      unfold dot at h
      rw [Finset.sum_congr rfl fun l _ => mul_left_comm (v l) _ _, ← Finset.mul_sum,
        Finset.sum_congr rfl fun l _ => mul_comm (v l) _, h, mul_zero]
  rw [this]
  exact Submodule.sum_mem _ fun l _ => Submodule.smul_mem _ _ (subset_rowSpan ((mem_hgpX id _ _ _).2 ⟨i, l, rfl⟩))

/-- Words of `Aᵀ` times columns of `B` are products of X checks. -/
theorem word_check_mem' {u : Fin A.length → F} (hu : u ∈ kernel (transposeRows id A)) (j : Fin m) :
    Fin.append 0 (kronRow u fun l => B.get l j) ∈ rowSpan (hgpX id A B) := by
  rw [mem_kernel_transposeRows] at hu
  have : Fin.append 0 (kronRow u fun l => B.get l j) = ∑ i, u i • hgpRowX id A B i j := by
    funext p
    rw [Finset.sum_apply]
    refine Fin.addCases (fun p => ?_) (fun p => ?_) p
    · simp only [hgpRowX, Fin.append_left, Pi.smul_apply, smul_eq_mul, Pi.zero_apply]
      rw [← flat_div_mod p]
      simp only [kronRow_flat, ← mul_assoc]
      rw [← Finset.sum_mul, Finset.sum_congr rfl fun i _ => mul_comm (u i) _, hu, zero_mul]
    · simp only [hgpRowX, Fin.append_right, Pi.smul_apply, smul_eq_mul, id]
      rw [← flat_div_mod p]
      simp only [kronRow_flat, unitRow]
      rw [Finset.sum_eq_single p.divNat] <;> simp +contextual [eq_comm]
  rw [this]
  exact Submodule.sum_mem _ fun i _ => Submodule.smul_mem _ _ (subset_rowSpan ((mem_hgpX id _ _ _).2 ⟨i, j, rfl⟩))

variable {x : Fin (n * m + A.length * B.length) → F}

/-- An operator that commutes with the Z checks, contracted with a word of `A`, is a word of `B`. -/
theorem contract_X_A (hx : x ∈ kernel (hgpZ id A B)) {u : Fin n → F} (hu : u ∈ kernel A) :
    (fun j => ∑ i, u i * secA x i j) ∈ kernel B := by
  intro r hr
  obtain ⟨l, rfl⟩ := List.get_of_mem hr
  have h := dot_eq_zero_of_mem_rowSpan (word_check_mem (B := B) hu l) hx
  rw [dot_secA, Finset.sum_comm] at h
  rw [← h]
  refine Finset.sum_congr rfl fun j _ => ?_
  rw [Finset.mul_sum]
  exact Finset.sum_congr rfl fun i _ => by ring

theorem contract_X_B (hx : x ∈ kernel (hgpZ id A B)) {v : Fin B.length → F} (hv : v ∈ kernel (transposeRows id B)) :
    (fun i => ∑ l, v l * secB x i l) ∈ kernel (transposeRows id A) := by
  rw [mem_kernel_transposeRows]
  intro k
  have h := dot_eq_zero_of_mem_rowSpan (check_word_mem (A := A) hv k) hx
  rw [dot_secB] at h
  rw [← h]
  refine Finset.sum_congr rfl fun i _ => ?_
  rw [Finset.mul_sum]
  exact Finset.sum_congr rfl fun l _ => by ring

theorem contract_Z_A (hx : x ∈ kernel (hgpX id A B)) {v : Fin m → F} (hv : v ∈ kernel B) :
    (fun i => ∑ j, v j * secA x i j) ∈ kernel A := by
  intro r hr
  obtain ⟨i, rfl⟩ := List.get_of_mem hr
  have h := dot_eq_zero_of_mem_rowSpan (check_word_mem' (A := A) hv i) hx
  rw [dot_secA] at h
  rw [← h]
  refine Finset.sum_congr rfl fun i _ => ?_
  rw [Finset.mul_sum]
  exact Finset.sum_congr rfl fun l _ => by ring

theorem contract_Z_B (hx : x ∈ kernel (hgpX id A B)) {u : Fin A.length → F} (hu : u ∈ kernel (transposeRows id A)) :
    (fun l => ∑ i, u i * secB x i l) ∈ kernel (transposeRows id B) := by
  rw [mem_kernel_transposeRows]
  intro j
  have h := dot_eq_zero_of_mem_rowSpan (word_check_mem' (B := B) hu j) hx
  rw [dot_secB, Finset.sum_comm] at h
  rw [← h]
  refine Finset.sum_congr rfl fun j _ => ?_
  rw [Finset.mul_sum]
  exact Finset.sum_congr rfl fun i _ => by ring

/-- label of a qudit in the first sector by its column, ... -/
def labA (n m a b : ℕ) : Fin (n * m + a * b) → Option (Fin n × Fin m) :=
  fun k => Fin.addCases (fun p => some (p.divNat, p.modNat)) (fun _ => none) k

@[inherit_doc labA]
def labB (n m a b : ℕ) : Fin (n * m + a * b) → Option (Fin a × Fin b) :=
  fun k => Fin.addCases (fun _ => none) (fun p => some (p.divNat, p.modNat)) k

theorem norm_contract_colsA {a b : ℕ} (x : Fin (n * m + a * b) → F) (u : Fin n → F) :
    hammingNorm (fun j => ∑ i, u i * secA x i j) ≤ hammingNorm x := by
  refine hammingNorm_le_of_fibres (fun k => (labA n m a b k).map Prod.snd) fun j hj => ?_
  obtain ⟨i, -, hi⟩ := Finset.exists_ne_zero_of_sum_ne_zero hj
  exact ⟨Fin.castAdd _ (flat i j), by simp [labA, modNat_flat], right_ne_zero_of_mul hi⟩

theorem norm_contract_rowsA {a b : ℕ} (x : Fin (n * m + a * b) → F) (u : Fin m → F) :
    hammingNorm (fun i => ∑ j, u j * secA x i j) ≤ hammingNorm x := by
  refine hammingNorm_le_of_fibres (fun k => (labA n m a b k).map Prod.fst) fun i hj => ?_
  obtain ⟨j, -, hi⟩ := Finset.exists_ne_zero_of_sum_ne_zero hj
  exact ⟨Fin.castAdd _ (flat i j), by simp [labA, divNat_flat], right_ne_zero_of_mul hi⟩

theorem norm_contract_colsB {a b : ℕ} (x : Fin (n * m + a * b) → F) (u : Fin a → F) :
    hammingNorm (fun j => ∑ i, u i * secB x i j) ≤ hammingNorm x := by
  refine hammingNorm_le_of_fibres (fun k => (labB n m a b k).map Prod.snd) fun j hj => ?_
  obtain ⟨i, -, hi⟩ := Finset.exists_ne_zero_of_sum_ne_zero hj
  exact ⟨Fin.natAdd _ (flat i j), by simp [labB, modNat_flat], right_ne_zero_of_mul hi⟩

theorem norm_contract_rowsB {a b : ℕ} (x : Fin (n * m + a * b) → F) (u : Fin b → F) :
    hammingNorm (fun i => ∑ j, u j * secB x i j) ≤ hammingNorm x := by
  refine hammingNorm_le_of_fibres (fun k => (labB n m a b k).map Prod.fst) fun i hj => ?_
  obtain ⟨j, -, hi⟩ := Finset.exists_ne_zero_of_sum_ne_zero hj
  exact ⟨Fin.natAdd _ (flat i j), by simp [labB, divNat_flat], right_ne_zero_of_mul hi⟩

theorem norm_kronRow (u : Fin n → F) (v : Fin m → F) :
    hammingNorm (kronRow u v) = hammingNorm u * hammingNorm v := by
  unfold hammingNorm
  rw [← Finset.card_product]
  refine (Finset.card_bij (fun p _ => flat p.1 p.2) (fun p hp => ?_) (fun p _ q _ h => ?_) fun k hk => ?_).symm
  · simp only [Finset.mem_product, Finset.mem_filter, Finset.mem_univ, true_and] at hp ⊢
    rw [kronRow_flat]
    exact mul_ne_zero hp.1 hp.2
  · have h1 := congrArg Fin.divNat h
    have h2 := congrArg Fin.modNat h
    rw [divNat_flat, divNat_flat] at h1
    rw [modNat_flat, modNat_flat] at h2
    exact Prod.ext h1 h2
  · simp only [Finset.mem_filter, Finset.mem_univ, true_and] at hk
    refine ⟨(k.divNat, k.modNat), ?_, flat_div_mod k⟩
    simp only [Finset.mem_product, Finset.mem_filter, Finset.mem_univ, true_and]
    exact ⟨left_ne_zero_of_mul hk, right_ne_zero_of_mul hk⟩

theorem norm_append_left {N M : ℕ} (a : Fin N → F) : hammingNorm (Fin.append a (0 : Fin M → F)) = hammingNorm a := by
  unfold hammingNorm
  refine (Finset.card_bij (fun p _ => Fin.castAdd M p) (fun p hp => ?_) (fun p _ q _ h => Fin.castAdd_injective _ _ h)
    fun k hk => ?_).symm
  · simpa using hp
  · revert hk
    refine Fin.addCases (fun p hp => ⟨p, by simpa using hp, rfl⟩) (fun p hp => by simp at hp) k

theorem norm_append_right {N M : ℕ} (a : Fin N → F) : hammingNorm (Fin.append (0 : Fin M → F) a) = hammingNorm a := by
  unfold hammingNorm
  refine (Finset.card_bij (fun p _ => Fin.natAdd M p) (fun p hp => ?_) (fun p _ q _ h => Fin.natAdd_injective _ _ h)
    fun k hk => ?_).symm
  · simpa using hp
  · revert hk
    refine Fin.addCases (fun p hp => by simp at hp) (fun p hp => ⟨p, by simpa using hp, rfl⟩) k

theorem norm_unitRow (i : Fin n) : hammingNorm (unitRow F i) = 1 := by
  unfold hammingNorm
  rw [Finset.card_eq_one]
  exact ⟨i, by ext j; simp [unitRow]⟩

end QLDPC
