import Verif.Model.Concat
import Verif.Lemmas.Combine
import Verif.Props.QuditDistance

/-! Blocks of qudits, stacking and concatenation. -/

set_option linter.unusedSectionVars false

namespace QLDPC

open Spec Props

variable {F : Type} [Field F] [DecidableEq F] {n m : ℕ}

/-! ## Two blocks -/

@[simp] theorem xPart_padL (r : Fin (n + n) → F) : xPart (padL m r) = Fin.append (xPart r) 0 := by
  simp [padL]
@[simp] theorem zPart_padL (r : Fin (n + n) → F) : zPart (padL m r) = Fin.append (zPart r) 0 := by
  simp [padL]
@[simp] theorem xPart_padR (r : Fin (m + m) → F) : xPart (padR n r) = Fin.append 0 (xPart r) := by
  simp [padR]
@[simp] theorem zPart_padR (r : Fin (m + m) → F) : zPart (padR n r) = Fin.append 0 (zPart r) := by
  simp [padR]

theorem ext_parts {p q : Fin (n + n) → F} (h1 : xPart p = xPart q) (h2 : zPart p = zPart q) : p = q := by
  rw [← append_parts p, h1, h2, append_parts]

theorem append_add (a b : Fin n → F) (c d : Fin m → F) :
    Fin.append (a + b) (c + d) = Fin.append a c + Fin.append b d := by
  funext i
  refine Fin.addCases (fun i => ?_) (fun i => ?_) i <;> simp

theorem append_smul (x : F) (a : Fin n → F) (c : Fin m → F) :
    Fin.append (x • a) (x • c) = x • Fin.append a c := by
  funext i
  refine Fin.addCases (fun i => ?_) (fun i => ?_) i <;> simp

theorem xPart_add (p q : Fin (n + n) → F) : xPart (p + q) = xPart p + xPart q := rfl
theorem zPart_add (p q : Fin (n + n) → F) : zPart (p + q) = zPart p + zPart q := rfl
theorem xPart_smul (x : F) (q : Fin (n + n) → F) : xPart (x • q) = x • xPart q := rfl
theorem zPart_smul (x : F) (q : Fin (n + n) → F) : zPart (x • q) = x • zPart q := rfl

/-- `padL` as a linear map -/
def padLₗ (n m : ℕ) : (Fin (n + n) → F) →ₗ[F] (Fin ((n + m) + (n + m)) → F) where
  toFun := padL m
  map_add' p q := by
    apply ext_parts <;> simp only [xPart_padL, zPart_padL, xPart_add, zPart_add] <;>
    · rw [← append_add, add_zero]
  map_smul' x q := by
    apply ext_parts <;> simp only [xPart_padL, zPart_padL, xPart_smul, zPart_smul, RingHom.id_apply] <;>
    · rw [← append_smul, smul_zero]

/-- `padR` as a linear map -/
def padRₗ (n m : ℕ) : (Fin (m + m) → F) →ₗ[F] (Fin ((n + m) + (n + m)) → F) where
  toFun := padR n
  map_add' p q := by
    apply ext_parts <;> simp only [xPart_padR, zPart_padR, xPart_add, zPart_add] <;>
    · rw [← append_add, add_zero]
  map_smul' x q := by
    apply ext_parts <;> simp only [xPart_padR, zPart_padR, xPart_smul, zPart_smul, RingHom.id_apply] <;>
    · rw [← append_smul, smul_zero]

theorem sform_padL_padL (p q : Fin (n + n) → F) : sform (padL m p) (padL m q) = sform p q := by
  rw [sform_eq, sform_eq]; simp [dot_append_left]

theorem sform_padR_padR (p q : Fin (m + m) → F) : sform (padR n p) (padR n q) = sform p q := by
  rw [sform_eq, sform_eq]; simp [dot_append_right]

theorem sform_padL_padR (p : Fin (n + n) → F) (q : Fin (m + m) → F) :
    sform (padL m p) (padR n q) = 0 := by
  rw [sform_eq]; simp only [xPart_padL, zPart_padL, xPart_padR, zPart_padR, dot_append_left]; simp [dot]

theorem joint_pad (A : Rows F (n + n)) : Joint A (padLₗ n m) (padRₗ n m) :=
  ⟨sform_padL_padL, sform_padR_padR, fun p _ q => sform_padL_padR p q⟩

/-- the first block of a row -/
def projL (x : Fin ((n + m) + (n + m)) → F) : Fin (n + n) → F :=
  Fin.append (fun i => xPart x (Fin.castAdd m i)) (fun i => zPart x (Fin.castAdd m i))

/-- the second block of a row -/
def projR (x : Fin ((n + m) + (n + m)) → F) : Fin (m + m) → F :=
  Fin.append (fun i => xPart x (Fin.natAdd n i)) (fun i => zPart x (Fin.natAdd n i))

theorem pad_proj (x : Fin ((n + m) + (n + m)) → F) : padL m (projL x) + padR n (projR x) = x := by
  apply ext_parts
  · rw [xPart_add, xPart_padL, xPart_padR]
    funext i
    refine Fin.addCases (fun i => ?_) (fun i => ?_) i <;> simp [projL, projR]
  · rw [zPart_add, zPart_padL, zPart_padR]
    funext i
    refine Fin.addCases (fun i => ?_) (fun i => ?_) i <;> simp [projL, projR]

theorem pad_inj {p p' : Fin (n + n) → F} {q q' : Fin (m + m) → F}
    (h : padL m p + padR n q = padL m p' + padR n q') : p = p' ∧ q = q' := by
  have hx := congrArg xPart h
  have hz := congrArg zPart h
  simp only [xPart_add, zPart_add, xPart_padL, xPart_padR, zPart_padL, zPart_padR] at hx hz
  refine ⟨ext_parts (funext fun i => ?_) (funext fun i => ?_),
    ext_parts (funext fun i => ?_) (funext fun i => ?_)⟩
  · simpa using congrFun hx (Fin.castAdd m i)
  · simpa using congrFun hz (Fin.castAdd m i)
  · simpa using congrFun hx (Fin.natAdd n i)
  · simpa using congrFun hz (Fin.natAdd n i)

theorem sweight_pad (p : Fin (n + n) → F) (q : Fin (m + m) → F) :
    sweight (padL m p + padR n q) = sweight p + sweight q := by
  unfold sweight
  simp only [Finset.card_filter]
  rw [Fin.sum_univ_add]
  congr 1 <;> refine Finset.sum_congr rfl fun i _ => ?_ <;> simp [xPart_add, zPart_add]

theorem commutes_pad (A : Rows F (n + n)) (B : Rows F (m + m)) (p : Fin (n + n) → F)
    (q : Fin (m + m) → F) :
    CommutesWithStabilizers (A.map (padL m) ++ B.map (padR n)) (padL m p + padR n q) ↔
      CommutesWithStabilizers A p ∧ CommutesWithStabilizers B q := by
  have hs : ∀ x, (IsCombination (A.map (padL m) ++ B.map (padR n)) x ∧
      ∀ r ∈ A.map (padL m) ++ B.map (padR n), sform r x = 0) ↔
      ∃ s ∈ rowSpan (subsystemStabilizers A), ∃ t ∈ rowSpan (subsystemStabilizers B),
        x = padL m s + padR n t := by
    intro x
    rw [isCombination_iff, ← mem_subsystemStabilizers]
    have := (joint_pad (F := F) (n := n) (m := m) A).stab_rowSpan B
    change x ∈ rowSpan (subsystemStabilizers (A.map (padLₗ n m) ++ B.map (padRₗ n m))) ↔ _
    rw [this, Joint.mem_iff]
    rfl
  have hA : ∀ {k : ℕ} (C : Rows F (k + k)) x, CommutesWithStabilizers C x ↔
      ∀ s ∈ rowSpan (subsystemStabilizers C), sform s x = 0 := by
    intro k C x
    unfold CommutesWithStabilizers
    constructor
    · intro h s hs
      obtain ⟨h1, h2⟩ := (mem_subsystemStabilizers C s).1 hs
      exact h s ((isCombination_iff C s).2 h1) h2
    · intro h s h1 h2
      exact h s ((mem_subsystemStabilizers C s).2 ⟨(isCombination_iff C s).1 h1, h2⟩)
  have e : ∀ s t, sform (padL m s + padR n t) (padL m p + padR n q) = sform s p + sform t q := by
    intro s t
    rw [sform_add_left, sform_add_right, sform_add_right, sform_padL_padL, sform_padR_padR,
      sform_padL_padR, sform_comm (padR n t), sform_padL_padR, neg_zero, add_zero, zero_add]
  rw [hA A, hA B]
  constructor
  · intro h
    constructor
    · intro s hs'
      have := (hs (padL m s + padR n 0)).2 ⟨s, hs', 0, Submodule.zero_mem _, rfl⟩
      have h2 := h _ this.1 this.2
      rwa [e, sform_zero_left, add_zero] at h2
    · intro t ht
      have := (hs (padL m 0 + padR n t)).2 ⟨0, Submodule.zero_mem _, t, ht, rfl⟩
      have h2 := h _ this.1 this.2
      rwa [e, sform_zero_left, zero_add] at h2
  · rintro ⟨h1, h2⟩ x hx1 hx2
    obtain ⟨s, hs', t, ht, rfl⟩ := (hs x).1 ⟨hx1, hx2⟩
    rw [e, h1 s hs', h2 t ht, add_zero]

theorem isCombination_pad (A : Rows F (n + n)) (B : Rows F (m + m)) (p : Fin (n + n) → F)
    (q : Fin (m + m) → F) :
    IsCombination (A.map (padL m) ++ B.map (padR n)) (padL m p + padR n q) ↔
      IsCombination A p ∧ IsCombination B q := by
  rw [isCombination_iff, isCombination_iff, isCombination_iff]
  change _ ∈ rowSpan (A.map (padLₗ n m) ++ B.map (padRₗ n m)) ↔ _
  rw [Joint.mem_iff]
  constructor
  · rintro ⟨p', hp, q', hq, e⟩
    obtain ⟨rfl, rfl⟩ := pad_inj (p' := p') (q' := q') e
    exact ⟨hp, hq⟩
  · rintro ⟨h1, h2⟩; exact ⟨p, h1, q, h2, rfl⟩

theorem commutes_of_combination {M : Rows F (n + n)} {p : Fin (n + n) → F} (h : IsCombination M p) :
    CommutesWithStabilizers M p := by
  intro s hs hc
  rw [isCombination_iff] at h
  rw [sform_comm, sform_span_left hc h, neg_zero]

theorem nontrivial_pad (A : Rows F (n + n)) (B : Rows F (m + m)) (p : Fin (n + n) → F)
    (q : Fin (m + m) → F) :
    IsNontrivialLogical (A.map (padL m) ++ B.map (padR n)) (padL m p + padR n q) ↔
      (IsNontrivialLogical A p ∧ CommutesWithStabilizers B q) ∨
        (CommutesWithStabilizers A p ∧ IsNontrivialLogical B q) := by
  have h1 := commutes_pad A B p q
  have h2 := isCombination_pad A B p q
  unfold CommutesWithStabilizers at h1
  unfold IsNontrivialLogical CommutesWithStabilizers
  rw [h1, h2]
  tauto

/-- weights of nontrivial logical operators of two blocks -/
theorem weights_pad (A : Rows F (n + n)) (B : Rows F (m + m)) (k : ℕ) :
    (∃ x, IsNontrivialLogical (A.map (padL m) ++ B.map (padR n)) x ∧ sweight x ≤ k) ↔
      (∃ p, IsNontrivialLogical A p ∧ sweight p ≤ k) ∨ ∃ q, IsNontrivialLogical B q ∧ sweight q ≤ k := by
  have w0 : ∀ j, sweight (0 : Fin (j + j) → F) = 0 := by
    intro j; unfold sweight; simp [xPart, zPart]
  have c0 : ∀ {j : ℕ} (C : Rows F (j + j)), CommutesWithStabilizers C 0 := by
    intro j C s _ _; exact sform_zero_right s
  constructor
  · rintro ⟨x, hx, hk⟩
    rw [← pad_proj x] at hx hk
    rw [sweight_pad] at hk
    rcases (nontrivial_pad A B _ _).1 hx with ⟨h, _⟩ | ⟨_, h⟩
    · exact Or.inl ⟨_, h, by omega⟩
    · exact Or.inr ⟨_, h, by omega⟩
  · rintro (⟨p, hp, hk⟩ | ⟨q, hq, hk⟩)
    · exact ⟨_, (nontrivial_pad A B p 0).2 (Or.inl ⟨hp, c0 B⟩), by rw [sweight_pad, w0]; omega⟩
    · exact ⟨_, (nontrivial_pad A B 0 q).2 (Or.inr ⟨c0 A, hq⟩), by rw [sweight_pad, w0]; omega⟩

theorem allCommute_pad (A : Rows F (n + n)) (B : Rows F (m + m)) :
    AllCommute (A.map (padL m) ++ B.map (padR n)) ↔ AllCommute A ∧ AllCommute B :=
  (joint_pad (F := F) (n := n) (m := m) A).allCommute_iff B

theorem isLogicalBasis_pad {A AX AZ : Rows F (n + n)} {B BX BZ : Rows F (m + m)}
    (hA : IsLogicalBasis A AX AZ) (hB : IsLogicalBasis B BX BZ) :
    IsLogicalBasis (A.map (padL m) ++ B.map (padR n)) (AX.map (padL m) ++ BX.map (padR n))
      (AZ.map (padL m) ++ BZ.map (padR n)) := by
  have gen : ∀ {U U' : Rows F (n + n)} {V V' : Rows F (m + m)},
      (∀ p ∈ U, ∀ q ∈ U', sform p q = 0) → (∀ p ∈ V, ∀ q ∈ V', sform p q = 0) →
      ∀ p ∈ U.map (padL m) ++ V.map (padR n), ∀ q ∈ U'.map (padL m) ++ V'.map (padR n),
        sform p q = 0 := by
    intro U U' V V' h1 h2 p hp q hq
    rw [List.mem_append, List.mem_map, List.mem_map] at hp hq
    rcases hp with ⟨p, hp, rfl⟩ | ⟨p, hp, rfl⟩ <;> rcases hq with ⟨q, hq, rfl⟩ | ⟨q, hq, rfl⟩
    · rw [sform_padL_padL]; exact h1 p hp q hq
    · exact sform_padL_padR p q
    · rw [sform_comm, sform_padL_padR, neg_zero]
    · rw [sform_padR_padR]; exact h2 p hp q hq
  refine ⟨by simp [hA.len, hB.len], gen hA.commX hB.commX, gen hA.commZ hB.commZ, ?_,
    gen hA.xx hB.xx, gen hA.zz hB.zz⟩
  intro i j hi hj
  have l1 := hA.len
  have l2 := hB.len
  simp only [List.length_append, List.length_map] at hi hj
  simp only [List.getElem_append, List.length_map, List.getElem_map]
  by_cases h1 : i < AX.length <;> by_cases h2 : j < AZ.length <;> simp only [h1, h2, dif_pos, dif_neg,
    not_false_eq_true]
  · rw [sform_padL_padL]; exact hA.pair i j h1 h2
  · rw [sform_padL_padR, if_neg (by omega)]
  · rw [sform_comm, sform_padL_padR, neg_zero, if_neg (by omega)]
  · rw [sform_padR_padR, hB.pair (i - AX.length) (j - AZ.length) (by omega) (by omega)]
    by_cases e : i = j
    · rw [if_pos (by omega), if_pos e]
    · rw [if_neg (by omega), if_neg e]

theorem logComplete_pad {A AX AZ : Rows F (n + n)} {B BX BZ : Rows F (m + m)}
    (hA : LogComplete A AX AZ) (hB : LogComplete B BX BZ) :
    LogComplete (A.map (padL m) ++ B.map (padR n)) (AX.map (padL m) ++ BX.map (padR n))
      (AZ.map (padL m) ++ BZ.map (padR n)) := by
  refine ⟨isLogicalBasis_pad hA.basis hB.basis, ?_⟩
  have h1 := (joint_pad (F := F) (n := n) (m := m) A).rank_eq B
  have h2 := (joint_pad (F := F) (n := n) (m := m) A).stab_rank B
  change rank (A.map (padL m) ++ B.map (padR n)) = _ at h1
  change rank (subsystemStabilizers (A.map (padL m) ++ B.map (padR n))) = _ at h2
  have h3 := hA.count
  have h4 := hB.count
  rw [h1, h2]
  simp only [List.length_append, List.length_map]
  omega

/-! ## Lists of blocks -/

/-- The object is in a consistent state: it has a complete set of logical operators, its dimension is their
number, and its checks commute unless it is flagged as a subsystem code. -/
structure Valid (c : QCode F n) (LX LZ : Rows F (n + n)) : Prop where
  ops : c.getLogicalOps = some (LX ++ LZ)
  complete : IsCompleteLogicalBasis c.matrix LX LZ
  comm : c.isSub = false → AllCommute c.matrix
  dim : c.dimension = LX.length

theorem Valid.log {c : QCode F n} {LX LZ : Rows F (n + n)} (h : Valid c LX LZ) :
    LogComplete c.matrix LX LZ := isComplete_iff.1 h.complete

theorem Valid.logicalsX {c : QCode F n} {LX LZ : Rows F (n + n)} (h : Valid c LX LZ) :
    c.logicalsX = LX := by
  unfold QCode.logicalsX
  rw [h.ops, Option.getD_some, List.length_append, ← h.complete.basis.len,
    show (LX.length + LX.length) / 2 = LX.length by omega, List.take_left']
  rfl

theorem Valid.logicalsZ {c : QCode F n} {LX LZ : Rows F (n + n)} (h : Valid c LX LZ) :
    c.logicalsZ = LZ := by
  unfold QCode.logicalsZ
  rw [h.ops, Option.getD_some, List.length_append, ← h.complete.basis.len,
    show (LX.length + LX.length) / 2 = LX.length by omega, List.drop_left']
  rfl

theorem logComplete_nil : LogComplete (F := F) (n := 0) [] [] [] := by
  refine ⟨⟨rfl, by simp, by simp, by simp, by simp, by simp⟩, ?_⟩
  have h : ∀ M : Rows F (0 + 0), rank M = 0 := by
    intro M
    rw [← finrank_rowSpan]
    have := Submodule.finrank_le (rowSpan M)
    rw [Module.finrank_fin_fun] at this
    omega
  rw [h, h]; rfl

theorem logComplete_blocks (codes : List (AnyQ F)) (X Z : ∀ n, QCode F n → Rows F (n + n))
    (h : ∀ c ∈ codes, LogComplete c.2.matrix (X c.1 c.2) (Z c.1 c.2)) :
    LogComplete (blocksRows (fun _ c => c.matrix) codes) (blocksRows X codes) (blocksRows Z codes) := by
  induction codes with
  | nil => exact logComplete_nil
  | cons c codes ih =>
    exact logComplete_pad (h c List.mem_cons_self) (ih fun c hc => h c (List.mem_cons_of_mem _ hc))

theorem allCommute_blocks (codes : List (AnyQ F)) :
    AllCommute (blocksRows (fun _ c => c.matrix) codes) ↔ ∀ c ∈ codes, AllCommute c.2.matrix := by
  induction codes with
  | nil => simp [blocksRows, AllCommute]
  | cons c codes ih =>
    rw [List.forall_mem_cons, ← ih]
    exact allCommute_pad _ _

theorem weights_blocks (codes : List (AnyQ F)) (k : ℕ) :
    (∃ x, IsNontrivialLogical (blocksRows (fun _ c => c.matrix) codes) x ∧ sweight x ≤ k) ↔
      ∃ c ∈ codes, ∃ p, IsNontrivialLogical c.2.matrix p ∧ sweight p ≤ k := by
  induction codes with
  | nil =>
    constructor
    · rintro ⟨x, hx, _⟩
      have : x = 0 := funext fun i => (Nat.not_lt_zero _ i.isLt).elim
      subst this
      exact absurd ((isCombination_iff _ _).2 (Submodule.zero_mem _)) hx.2
    · rintro ⟨c, hc, _⟩; cases hc
  | cons c codes ih =>
    rw [List.exists_mem_cons_iff, ← ih]
    exact weights_pad _ _ k

theorem length_blocksRows (f : ∀ n, QCode F n → Rows F (n + n)) (codes : List (AnyQ F)) :
    (blocksRows f codes).length = (codes.map fun c => (f c.1 c.2).length).sum := by
  induction codes with
  | nil => rfl
  | cons c codes ih =>
    have aux : ∀ {a b : ℕ} (A : Rows F (a + a)) (B : Rows F (b + b)),
        (A.map (padL b) ++ B.map (padR a)).length = A.length + B.length := by
      intro a b A B; simp
    exact (aux (f c.1 c.2) (blocksRows f codes)).trans (by rw [ih]; simp)

theorem blocksLen_eq {α : ℕ → Type} (codes : List (Σ n, α n)) :
    blocksLen codes = (codes.map Sigma.fst).sum := by
  induction codes with
  | nil => rfl
  | cons c codes ih => simp [blocksLen, ih]

theorem setLogicalOps_ok {c c' : QCode F n} {ops : Rows F (n + n)} (h : c.setLogicalOps ops = .ok c') :
    c' = { c with logicals? := some ops, dim? := some (ops.length / 2) } := by
  unfold QCode.setLogicalOps at h
  dsimp only at h
  simp only [if_true] at h
  split at h
  · cases h
  · split at h
    · cases h
    · split at h
      · cases h
      · cases h; rfl

/-- dimension of a code without cached data -/
theorem dimension_fresh {M LX LZ : Rows F (n + n)} {s : Bool} (h : LogComplete M LX LZ)
    (hM : s = false → AllCommute M) : (QCode.ofMatrix M (some s)).dimension = LX.length := by
  have hr : (dropZero (rowReduce M)).length = rank M := length_dropZero_rowReduce M
  have hc := h.count
  cases s with
  | true =>
    change subsystemDimension M = _
    unfold subsystemDimension
    have : (subsystemStabilizers M).length = rank (subsystemStabilizers M) := by
      have h1 := (C23_independent M).1
      have h2 := finrank_span_eq_card h1
      rw [Fintype.card_fin] at h2
      have h3 : rowSpan (subsystemStabilizers M) =
          Submodule.span F (Set.range fun i => (subsystemStabilizers M).get i) := by
        unfold rowSpan
        congr 1
        ext v; simp only [Set.mem_range, Set.mem_setOf_eq]; exact List.mem_iff_get
      rw [← finrank_rowSpan, h3, h2]
    rw [this, hr]
    omega
  | false =>
    change stabDimension M = _
    rw [rank_subsystemStabilizers (hM rfl)] at hc
    unfold stabDimension
    omega

theorem valid_set {c : QCode F n} {LX LZ : Rows F (n + n)} (h : LogComplete c.matrix LX LZ)
    (hc : c.isSub = false → AllCommute c.matrix) (hd : c.dimension = LX.length) :
    ∃ c', c.setLogicalOps (LX ++ LZ) = .ok c' ∧ Valid c' LX LZ ∧ c'.matrix = c.matrix ∧
      c'.isSub = c.isSub := by
  obtain ⟨c', h'⟩ := C21_accepts c LX LZ h.basis hd.symm
  have := setLogicalOps_ok h'
  subst this
  refine ⟨_, h', ⟨rfl, isComplete_iff.2 h, hc, ?_⟩, rfl, rfl⟩
  change (LX ++ LZ).length / 2 = LX.length
  rw [List.length_append, ← h.basis.len]
  omega

theorem valid_stack (codes : List (AnyQ F)) (hne : codes ≠ [])
    (h : ∀ c ∈ codes, ∃ LX LZ, Valid c.2 LX LZ) :
    ∃ s, stackQ codes true = .ok s ∧
      Valid s (blocksRows (fun _ c => c.logicalsX) codes) (blocksRows (fun _ c => c.logicalsZ) codes) ∧
      s.matrix = blocksRows (fun _ c => c.matrix) codes ∧
      s.isSub = codes.any fun c => c.2.isSub := by
  have hlog : LogComplete (blocksRows (fun _ c => c.matrix) codes)
      (blocksRows (fun _ c => c.logicalsX) codes) (blocksRows (fun _ c => c.logicalsZ) codes) := by
    apply logComplete_blocks codes (fun _ c => c.logicalsX) (fun _ c => c.logicalsZ)
    intro c hc
    obtain ⟨LX, LZ, hv⟩ := h c hc
    simp only [hv.logicalsX, hv.logicalsZ]
    exact hv.log
  have hcomm : (codes.any fun c => c.2.isSub) = false →
      AllCommute (blocksRows (fun _ c => c.matrix) codes) := by
    intro hs
    rw [allCommute_blocks]
    intro c hc
    obtain ⟨LX, LZ, hv⟩ := h c hc
    apply hv.comm
    rw [List.any_eq_false] at hs
    simpa using hs c hc
  have hsome : (codes.all fun c => c.2.getLogicalOps.isSome) = true := by
    rw [List.all_eq_true]
    intro c hc
    obtain ⟨LX, LZ, hv⟩ := h c hc
    simp [hv.ops]
  obtain ⟨s, h1, h2, h3, h4⟩ := valid_set (c := stackBase codes) hlog hcomm
    (dimension_fresh hlog hcomm)
  refine ⟨s, ?_, h2, h3, h4⟩
  unfold stackQ
  rw [if_neg hne, if_pos rfl, if_pos hsome, h1]

end QLDPC
