import Verif.Lemmas.CssSubsystem
import Verif.Lemmas.Stack
import Mathlib.InformationTheory.Hamming

/-!
# Parameters of a CSS code from a complete set of logical operators
-/

namespace QLDPC

open QLDPC.Spec

variable {F : Type} [Field F] [DecidableEq F] {n : ℕ}

/-- Logical operators of a CSS code that detect every nontrivial logical X operator. -/
structure CompleteLogicals (hx hz LX LZ : Rows F n) : Prop where
  comm : ∀ x ∈ hx, ∀ z ∈ hz, dot x z = 0
  len : LX.length = LZ.length
  commX : ∀ l ∈ LX, l ∈ kernel hz
  commZ : ∀ l ∈ LZ, l ∈ kernel hx
  pair : ∀ (i j : ℕ) (hi : i < LX.length) (hj : j < LZ.length),
    dot LX[i] LZ[j] = if i = j then 1 else 0
  complete : ∀ x ∈ kernel hz, (∀ z ∈ LZ, dot x z = 0) → x ∈ rowSpan hx

theorem dot_comm' (a b : Fin n → F) : dot a b = dot b a := by
  unfold dot; exact Finset.sum_congr rfl fun _ _ => mul_comm _ _

theorem dot_sub_smul (x a z : Fin n → F) (c : F) : dot (x - c • a) z = dot x z - c * dot a z := by
  unfold dot
  simp only [Pi.sub_apply, Pi.smul_apply, smul_eq_mul, sub_mul, Finset.sum_sub_distrib, Finset.mul_sum,
    mul_assoc]

theorem dot_sum_smul {k : ℕ} (c : Fin k → F) (L : Fin k → Fin n → F) (z : Fin n → F) :
    dot (∑ i, c i • L i) z = ∑ i, c i * dot (L i) z := by
  unfold dot
  simp only [Finset.sum_apply, Pi.smul_apply, smul_eq_mul, Finset.sum_mul, Finset.mul_sum]
  rw [Finset.sum_comm]
  exact Finset.sum_congr rfl fun _ _ => Finset.sum_congr rfl fun _ _ => mul_assoc _ _ _

variable {hx hz LX LZ : Rows F n}

theorem CompleteLogicals.sup_eq (h : CompleteLogicals hx hz LX LZ) :
    rowSpan hx ⊔ rowSpan LX = kernel hz := by
  refine le_antisymm (sup_le (rowSpan_le.2 fun x hx' z hz' => ?_) (rowSpan_le.2 h.commX)) fun x hx' => ?_
  · rw [dot_comm']; exact h.comm x hx' z hz'
  · set y : Fin n → F := ∑ i : Fin LX.length, dot x (LZ[i.val]'(h.len ▸ i.isLt)) • LX.get i with hy
    have hyL : y ∈ rowSpan LX := (mem_rowSpan_iff_exists LX y).2 ⟨_, hy⟩
    have hyK : y ∈ kernel hz := (rowSpan_le.2 h.commX) hyL
    have hxy : x - y ∈ rowSpan hx := by
      refine h.complete _ ((kernel hz).sub_mem hx' hyK) fun z hz' => ?_
      obtain ⟨j, hj, rfl⟩ := List.getElem_of_mem hz'
      have h1 : dot (x - y) LZ[j] = dot x LZ[j] - dot y LZ[j] := by
        unfold dot; simp only [Pi.sub_apply, sub_mul, Finset.sum_sub_distrib]
      have hj' : j < LX.length := by rw [h.len]; exact hj
      rw [h1, hy, dot_sum_smul, Finset.sum_eq_single ⟨j, hj'⟩]
      · rw [List.get_eq_getElem, h.pair j j hj' hj, if_pos rfl, mul_one, sub_self]
      · intro i _ hi
        rw [List.get_eq_getElem, h.pair i.val j i.isLt hj, if_neg fun he => hi (Fin.ext he), mul_zero]
      · intro hh; exact absurd (Finset.mem_univ _) hh
    have := Submodule.add_mem_sup hxy hyL
    rwa [sub_add_cancel] at this

theorem CompleteLogicals.finrank (h : CompleteLogicals hx hz LX LZ) :
    Module.finrank F (kernel hx) + Module.finrank F (kernel hz) = n + LX.length := by
  have h1 := finrank_sup_paired (S := rowSpan hx) h.len
    (fun s hs z hz' => dot_eq_zero_of_mem_rowSpan hs (h.commZ z hz')) h.pair
  rw [h.sup_eq] at h1
  have h2 := finrank_kernel hx
  have h3 := finrank_rowSpan hx
  omega

/-- Logical operators that detect all nontrivial X operators also detect all nontrivial Z operators. -/
theorem CompleteLogicals.symm (h : CompleteLogicals hx hz LX LZ) : CompleteLogicals hz hx LZ LX := by
  have hpair' : ∀ (i j : ℕ) (hi : i < LZ.length) (hj : j < LX.length),
      dot LZ[i] LX[j] = if i = j then 1 else 0 := by
    intro i j hi hj
    rw [dot_comm', h.pair j i hj hi]; simp only [eq_comm]
  refine ⟨fun z hz' x hx' => by rw [dot_comm']; exact h.comm x hx' z hz', h.len.symm, h.commZ, h.commX,
    hpair', fun z hz' hzL => ?_⟩
  have hdim : Module.finrank F (rowSpan hz) + LZ.length = Module.finrank F (kernel hx) := by
    have h1 := h.finrank
    have h2 := finrank_kernel hz
    have h3 := finrank_rowSpan hz
    have h4 := h.len
    omega
  have hc := css_complete (S := rowSpan hz) (K := kernel hx) h.len.symm
    (rowSpan_le.2 fun z hz' x hx' => h.comm x hx' z hz') h.commZ
    (fun s hs x hx' => dot_eq_zero_of_mem_rowSpan hs (h.commX x hx')) hpair' hdim
  rw [← hc] at hz'
  obtain ⟨s, hs, y, hy, rfl⟩ := Submodule.mem_sup.1 hz'
  obtain ⟨c, rfl⟩ := (mem_rowSpan_iff_exists LZ y).1 hy
  have : ∀ i, c i = 0 := by
    intro i
    have hi : i.val < LX.length := by rw [h.len]; exact i.isLt
    have h1 := hzL LX[i.val] (List.getElem_mem hi)
    have h2 : dot (s + ∑ i, c i • LZ.get i) LX[i.val] = dot s LX[i.val] +
        dot (∑ i, c i • LZ.get i) LX[i.val] := by
      unfold dot; simp only [Pi.add_apply, add_mul, Finset.sum_add_distrib]
    rw [h2, dot_eq_zero_of_mem_rowSpan hs (h.commX _ (List.getElem_mem hi)), zero_add, dot_sum_smul,
      Finset.sum_eq_single i] at h1
    · rwa [List.get_eq_getElem, hpair' i.val i.val i.isLt hi, if_pos rfl, mul_one] at h1
    · intro j _ hj
      rw [List.get_eq_getElem, hpair' j.val i.val j.isLt hi, if_neg fun he => hj (Fin.ext he), mul_zero]
    · intro hh; exact absurd (Finset.mem_univ _) hh
  have hz0 : ∑ i, c i • LZ.get i = 0 := Finset.sum_eq_zero fun i _ => by rw [this i, zero_smul]
  change s + ∑ i, c i • LZ.get i ∈ _
  rw [hz0, add_zero]; exact hs

/-- A nontrivial X operator meets some logical Z operator. -/
theorem CompleteLogicals.exists_pair (h : CompleteLogicals hx hz LX LZ) {x : Fin n → F}
    (hk : x ∈ kernel hz) (hn : x ∉ rowSpan hx) : ∃ i, ∃ hi : i < LZ.length, dot x LZ[i] ≠ 0 := by
  by_contra hcon
  push Not at hcon
  refine hn (h.complete x hk fun z hz' => ?_)
  obtain ⟨i, hi, rfl⟩ := List.getElem_of_mem hz'
  exact hcon i hi

/-- Logical Z operators with the same pairings act alike on logical X operators. -/
theorem CompleteLogicals.transport (h : CompleteLogicals hx hz LX LZ) {x z : Fin n → F}
    (hk : x ∈ kernel hz) (hz' : z ∈ kernel hx) {i : ℕ} (hi : i < LZ.length) {u : F}
    (hp : ∀ (j : ℕ) (hj : j < LX.length), dot LX[j] z = if j = i then u else 0) :
    dot x z = u * dot x LZ[i] := by
  have h1 : z - u • LZ[i] ∈ rowSpan hz := by
    refine h.symm.complete _ ((kernel hx).sub_mem hz' ((kernel hx).smul_mem _ (h.commZ _ (List.getElem_mem hi))))
      fun l hl => ?_
    obtain ⟨j, hj, rfl⟩ := List.getElem_of_mem hl
    rw [dot_sub_smul, dot_comm', hp j hj, dot_comm' LZ[i], h.pair j i hj hi]
    split_ifs <;> simp
  have h2 := dot_eq_zero_of_mem_rowSpan h1 hk
  rw [dot_sub_smul, sub_eq_zero, dot_comm', dot_comm' LZ[i]] at h2
  exact h2

/-- A vector with a nonzero entry in every fibre of a map to `m` labels has weight at least `m`. -/
theorem le_hammingNorm_of_fibres {m : ℕ} {x : Fin n → F} (f : Fin n → Fin m)
    (hf : ∀ t, ∃ k, f k = t ∧ x k ≠ 0) : m ≤ hammingNorm x := by
  unfold hammingNorm
  have : Finset.univ ⊆ (Finset.univ.filter fun k => x k ≠ 0).image f := by
    intro t _
    obtain ⟨k, hk, hx⟩ := hf t
    exact Finset.mem_image.2 ⟨k, by simp [hx], hk⟩
  calc m = (Finset.univ : Finset (Fin m)).card := by simp
    _ ≤ _ := Finset.card_le_card this
    _ ≤ _ := Finset.card_image_le

end QLDPC
