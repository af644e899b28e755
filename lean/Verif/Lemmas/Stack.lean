import Verif.Lemmas.Shorten
import Verif.Spec.Code
import Mathlib.LinearAlgebra.Dimension.Constructions

set_option linter.unusedSectionVars false

namespace QLDPC

open Spec

variable {F : Type} [Field F] [DecidableEq F] {n m : ℕ}

theorem isWord_iff (H : Rows F n) (w : Fin n → F) : IsWord H w ↔ w ∈ kernel H := Iff.rfl

theorem codeSpace_eq (H : Rows F n) : codeSpace H = kernel H := by ext w; rfl

theorem codeDim_eq (H : Rows F n) : codeDim H = Module.finrank F (kernel H) := by
  rw [codeDim, codeSpace_eq]

theorem isCombination_iff (G : Rows F n) (w : Fin n → F) : IsCombination G w ↔ w ∈ rowSpan G := by
  rw [mem_rowSpan_iff_vecMat]
  constructor
  · rintro ⟨c, rfl⟩
    refine ⟨List.ofFn c, by simp, ?_⟩
    rw [vecMat_eq_sum _ _ (by simp)]
    exact Finset.sum_congr rfl fun i _ => by simp
  · rintro ⟨c, hc, rfl⟩
    rw [vecMat_eq_sum _ _ hc]
    exact ⟨fun i => c.get (i.cast hc.symm), rfl⟩

/-- splitting a vector in two blocks -/
def splitEquiv (n m : ℕ) : ((Fin n → F) × (Fin m → F)) ≃ₗ[F] (Fin (n + m) → F) where
  toFun p := Fin.append p.1 p.2
  invFun w := (fun i => w (Fin.castAdd m i), fun i => w (Fin.natAdd n i))
  left_inv p := by ext i <;> simp
  right_inv w := by
    funext i
    refine Fin.addCases (fun i => ?_) (fun i => ?_) i <;> simp
  map_add' p q := by
    funext i
    refine Fin.addCases (fun i => ?_) (fun i => ?_) i <;> simp
  map_smul' c p := by
    funext i
    refine Fin.addCases (fun i => ?_) (fun i => ?_) i <;> simp

theorem dot_append_left (r : Fin n → F) (w : Fin (n + m) → F) :
    dot (Fin.append r 0) w = dot r fun i => w (Fin.castAdd m i) := by
  unfold dot; rw [Fin.sum_univ_add]; simp

theorem dot_append_right (r : Fin m → F) (w : Fin (n + m) → F) :
    dot (Fin.append 0 r) w = dot r fun i => w (Fin.natAdd n i) := by
  unfold dot; rw [Fin.sum_univ_add]; simp

theorem mem_kernel_blockDiag2 (A : Rows F n) (B : Rows F m) (w : Fin (n + m) → F) :
    w ∈ kernel (blockDiag2 A B) ↔
      (fun i => w (Fin.castAdd m i)) ∈ kernel A ∧ (fun i => w (Fin.natAdd n i)) ∈ kernel B := by
  constructor
  · intro h
    refine ⟨fun r hr => ?_, fun r hr => ?_⟩
    · rw [← dot_append_left]
      exact h _ (List.mem_append_left _ (List.mem_map.2 ⟨r, hr, rfl⟩))
    · rw [← dot_append_right]
      exact h _ (List.mem_append_right _ (List.mem_map.2 ⟨r, hr, rfl⟩))
  · rintro ⟨h1, h2⟩ r hr
    rcases List.mem_append.1 hr with hr | hr
    · obtain ⟨r, hr', rfl⟩ := List.mem_map.1 hr
      rw [dot_append_left]; exact h1 r hr'
    · obtain ⟨r, hr', rfl⟩ := List.mem_map.1 hr
      rw [dot_append_right]; exact h2 r hr'

theorem kernel_blockDiag2 (A : Rows F n) (B : Rows F m) :
    kernel (blockDiag2 A B) = ((kernel A).prod (kernel B)).map (splitEquiv n m).toLinearMap := by
  ext w
  rw [mem_kernel_blockDiag2, Submodule.mem_map_equiv]
  rfl

theorem finrank_blockDiag2 (A : Rows F n) (B : Rows F m) :
    Module.finrank F (kernel (blockDiag2 A B)) =
      Module.finrank F (kernel A) + Module.finrank F (kernel B) := by
  rw [kernel_blockDiag2, LinearEquiv.finrank_map_eq, ← Module.finrank_prod]
  exact LinearEquiv.finrank_eq
    { toFun := fun x => (⟨x.1.1, x.2.1⟩, ⟨x.1.2, x.2.2⟩)
      invFun := fun y => ⟨(y.1.1, y.2.1), y.1.2, y.2.2⟩
      left_inv := fun _ => rfl
      right_inv := fun _ => rfl
      map_add' := fun _ _ => rfl
      map_smul' := fun _ _ => rfl }

theorem entryAt_castAdd (w : Fin (n + m) → F) (k : ℕ) (h : k < n) :
    entryAt w k = w (Fin.castAdd m ⟨k, h⟩) := by
  unfold entryAt; rw [dif_pos (by omega)]; rfl

theorem entryAt_natAdd (w : Fin (n + m) → F) (k : ℕ) :
    entryAt w (n + k) = entryAt (fun i => w (Fin.natAdd n i)) k := by
  unfold entryAt
  by_cases h : k < m
  · rw [dif_pos (by omega), dif_pos h]; rfl
  · rw [dif_neg (by omega), dif_neg h]

theorem blockDiag_length (l : List (AnyRows F)) : (blockDiag l).1 = (l.map Sigma.fst).sum := by
  induction l with
  | nil => rfl
  | cons c l ih => obtain ⟨n, A⟩ := c; simp only [blockDiag, ih, List.map_cons, List.sum_cons]

/-- offset of block `i` -/
def offsetOf (l : List (AnyRows F)) (i : ℕ) : ℕ := ((l.take i).map Sigma.fst).sum

theorem mem_kernel_blockDiag (l : List (AnyRows F)) (w : Fin (blockDiag l).1 → F) :
    w ∈ kernel (blockDiag l).2 ↔
      ∀ i (h : i < l.length), blockAt w (offsetOf l i) (l[i]).1 ∈ kernel (l[i]).2 := by
  induction l with
  | nil =>
    refine ⟨fun _ i h => absurd h (Nat.not_lt_zero i), fun _ r hr => ?_⟩
    exact absurd hr (List.not_mem_nil (a := r))
  | cons c l ih =>
    obtain ⟨n, A⟩ := c
    have := mem_kernel_blockDiag2 A (blockDiag l).2 w
    refine this.trans ?_
    rw [ih]
    constructor
    · rintro ⟨h1, h2⟩ i hi
      cases i with
      | zero =>
        have e : blockAt w (offsetOf (⟨n, A⟩ :: l) 0) n = fun i => w (Fin.castAdd _ i) := by
          funext j
          simp only [blockAt, offsetOf, List.take_zero, List.map_nil, List.sum_nil, zero_add]
          exact entryAt_castAdd (n := n) (m := (blockDiag l).1) w j.val j.isLt
        simp only [List.getElem_cons_zero]
        rw [e]; exact h1
      | succ i =>
        have hi' : i < l.length := by simpa using hi
        have e : blockAt w (offsetOf (⟨n, A⟩ :: l) (i + 1)) (l[i]).1 =
            blockAt (fun j => w (Fin.natAdd n j)) (offsetOf l i) (l[i]).1 := by
          funext j
          simp only [blockAt, offsetOf, List.take_succ_cons, List.map_cons, List.sum_cons, add_assoc]
          exact entryAt_natAdd (n := n) (m := (blockDiag l).1) w _
        simp only [List.getElem_cons_succ]
        rw [e]; exact h2 i hi'
    · intro h
      refine ⟨?_, fun i hi => ?_⟩
      · have h0 := h 0 (by simp)
        have e : blockAt w (offsetOf (⟨n, A⟩ :: l) 0) n = fun i => w (Fin.castAdd _ i) := by
          funext j
          simp only [blockAt, offsetOf, List.take_zero, List.map_nil, List.sum_nil, zero_add]
          exact entryAt_castAdd (n := n) (m := (blockDiag l).1) w j.val j.isLt
        simp only [List.getElem_cons_zero] at h0
        rw [e] at h0; exact h0
      · have h1 := h (i + 1) (by simpa using hi)
        have e : blockAt w (offsetOf (⟨n, A⟩ :: l) (i + 1)) (l[i]).1 =
            blockAt (fun j => w (Fin.natAdd n j)) (offsetOf l i) (l[i]).1 := by
          funext j
          simp only [blockAt, offsetOf, List.take_succ_cons, List.map_cons, List.sum_cons, add_assoc]
          exact entryAt_natAdd (n := n) (m := (blockDiag l).1) w _
        simp only [List.getElem_cons_succ] at h1
        rw [e] at h1; exact h1

theorem finrank_blockDiag (l : List (AnyRows F)) :
    Module.finrank F (kernel (blockDiag l).2) =
      (l.map fun c => Module.finrank F (kernel c.2)).sum := by
  induction l with
  | nil =>
    have := finrank_kernel (F := F) (n := 0) []
    simp only [List.map_nil, List.sum_nil]
    have : Module.finrank F (kernel ([] : Rows F 0)) = 0 := by omega
    exact this
  | cons c l ih =>
    obtain ⟨n, A⟩ := c
    rw [List.map_cons, List.sum_cons, ← ih]
    exact finrank_blockDiag2 A _

theorem hammingNorm_append (u : Fin n → F) (v : Fin m → F) :
    hammingNorm (Fin.append u v) = hammingNorm u + hammingNorm v := by
  unfold hammingNorm
  simp only [Finset.card_filter]
  rw [Fin.sum_univ_add]
  simp

/-- Weights of the nonzero words of a stack: below each one there is the weight of a nonzero word of a
component, and each such weight occurs. -/
theorem weights_blockDiag (l : List (AnyRows F)) :
    (∀ w ∈ kernel (blockDiag l).2, w ≠ 0 →
      ∃ c ∈ l, ∃ u ∈ kernel c.2, u ≠ 0 ∧ hammingNorm u ≤ hammingNorm w) ∧
    (∀ c ∈ l, ∀ u ∈ kernel c.2, u ≠ 0 →
      ∃ w ∈ kernel (blockDiag l).2, w ≠ 0 ∧ hammingNorm w = hammingNorm u) := by
  induction l with
  | nil =>
    refine ⟨fun w _ h => absurd (funext fun i => ?_) h, by simp⟩
    exact (Nat.not_lt_zero _ i.isLt).elim
  | cons c l ih =>
    obtain ⟨n, A⟩ := c
    refine ⟨fun w hw h => ?_, fun c hc u hu h => ?_⟩
    · change Fin (n + (blockDiag l).1) → F at w
      obtain ⟨h1, h2⟩ := (mem_kernel_blockDiag2 A (blockDiag l).2 w).1 hw
      have happ : w = Fin.append (fun i => w (Fin.castAdd _ i)) (fun i => w (Fin.natAdd n i)) :=
        ((splitEquiv n (blockDiag l).1).right_inv w).symm
      have hn := hammingNorm_append (fun i => w (Fin.castAdd (blockDiag l).1 i))
        (fun i => w (Fin.natAdd n i))
      rw [← happ] at hn
      by_cases hu : (fun i => w (Fin.castAdd (blockDiag l).1 i)) = 0
      · have hv : (fun i => w (Fin.natAdd n i)) ≠ 0 := by
          intro hv
          apply h
          rw [happ, hu, hv]
          funext i
          refine Fin.addCases (fun i => ?_) (fun i => ?_) i <;> simp <;> rfl
        obtain ⟨c, hc, u, hu, h0, hle⟩ := ih.1 _ h2 hv
        exact ⟨c, List.mem_cons_of_mem _ hc, u, hu, h0, hle.trans (hn ▸ Nat.le_add_left _ _)⟩
      · exact ⟨_, List.mem_cons_self, _, h1, hu, hn ▸ Nat.le_add_right _ _⟩
    · rcases List.mem_cons.1 hc with rfl | hc
      · refine ⟨(Fin.append u 0 : Fin (n + (blockDiag l).1) → F), ?_, ?_, ?_⟩
        · refine (mem_kernel_blockDiag2 A (blockDiag l).2 _).2 ⟨?_, ?_⟩
          · simpa using hu
          · convert Submodule.zero_mem _ using 1
            funext i; simp
        · intro h0
          apply h
          funext i
          have := congrFun h0 (Fin.castAdd _ i)
          simp only [Fin.append_left] at this
          exact this
        · exact (hammingNorm_append u 0).trans (by simp)
      · obtain ⟨w, hw, h0, hle⟩ := ih.2 c hc u hu h
        refine ⟨(Fin.append 0 w : Fin (n + (blockDiag l).1) → F), ?_, ?_, ?_⟩
        · refine (mem_kernel_blockDiag2 A (blockDiag l).2 _).2 ⟨?_, ?_⟩
          · convert Submodule.zero_mem _ using 1
            funext i; simp
          · simpa using hw
        · intro h1
          apply h0
          funext i
          have := congrFun h1 (Fin.natAdd n i)
          simp only [Fin.append_right] at this
          exact this
        · exact (hammingNorm_append 0 w).trans (by simpa using hle)

end QLDPC
