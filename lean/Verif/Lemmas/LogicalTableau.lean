import Verif.Lemmas.TableauCircuit
import Verif.Spec.Logical

/-! # Logical tableaus -/

namespace QLDPC

open Spec SPauli

variable {n k g : ℕ}

/-! ## Operators on the first qubits -/

/-- An operator on the first `k` of `n` qubits. -/
def padBits (n : ℕ) {k : ℕ} (u : Fin (k + k) → ZMod 2) : Fin (n + n) → ZMod 2 :=
  Fin.append (fun i => if h : i.val < k then xPart u ⟨i, h⟩ else 0) (fun i => if h : i.val < k then zPart u ⟨i, h⟩ else 0)

def embed (n : ℕ) {k : ℕ} (p : SPauli k) : SPauli n := ⟨p.phase, padBits n p.op⟩

theorem sum_pad {M : Type} [AddCommMonoid M] (hk : k ≤ n) (f : Fin k → M) :
    (∑ i : Fin n, if h : i.val < k then f ⟨i, h⟩ else 0) = ∑ i, f i := by
  obtain ⟨m, rfl⟩ := Nat.exists_eq_add_of_le hk
  rw [Fin.sum_univ_add]
  rw [Finset.sum_eq_zero (s := (Finset.univ : Finset (Fin m))) (fun i _ => dif_neg (by simp)), add_zero]
  exact Finset.sum_congr rfl fun i _ => dif_pos i.isLt

theorem xPart_pad (u : Fin (k + k) → ZMod 2) (i : Fin n) :
    xPart (padBits n u) i = if h : i.val < k then xPart u ⟨i, h⟩ else 0 := by unfold padBits; rw [xPart_append]

theorem zPart_pad (u : Fin (k + k) → ZMod 2) (i : Fin n) :
    zPart (padBits n u) i = if h : i.val < k then zPart u ⟨i, h⟩ else 0 := by unfold padBits; rw [zPart_append]

theorem ext_bits {u v : Fin (n + n) → ZMod 2} (hx : ∀ i, xPart u i = xPart v i) (hz : ∀ i, zPart u i = zPart v i) : u = v := by
  rw [← append_parts u, ← append_parts v, funext hx, funext hz]

theorem padBits_add (u v : Fin (k + k) → ZMod 2) : padBits n (u + v) = padBits n u + padBits n v := by
  apply ext_bits <;> intro i
  · rw [SPauli.xPart_add, xPart_pad, xPart_pad, xPart_pad]
    split_ifs
    · rfl
    · simp
  · rw [SPauli.zPart_add, zPart_pad, zPart_pad, zPart_pad]
    split_ifs
    · rfl
    · simp

theorem sum_zx_pad (hk : k ≤ n) (u v : Fin (k + k) → ZMod 2) :
    (∑ i, zPart (padBits n u) i * xPart (padBits n v) i) = ∑ i, zPart u i * xPart v i := by
  rw [← sum_pad hk]
  refine Finset.sum_congr rfl fun i _ => ?_
  rw [xPart_pad, zPart_pad]
  split_ifs <;> simp

theorem isHom_embed (hk : k ≤ n) : IsHom (embed n : SPauli k → SPauli n) where
  mul p q := by
    ext1
    · change (p * q).phase = _
      rw [mul_phase, mul_phase]
      change _ = p.phase + q.phase + double (∑ i, zPart (padBits n p.op) i * xPart (padBits n q.op) i)
      rw [sum_zx_pad hk]
    · exact padBits_add _ _
  scalar a := by
    ext1
    · rfl
    · apply ext_bits <;> intro i
      · change xPart (padBits n 0) i = 0
        rw [xPart_pad]; split_ifs <;> rfl
      · change zPart (padBits n 0) i = 0
        rw [zPart_pad]; split_ifs <;> rfl

theorem embed_X (hk : k ≤ n) (j : Fin k) : embed n (SPauli.X j) = SPauli.X (Fin.castLE hk j) := by
  ext1
  · exact (X_phase j).trans (X_phase _).symm
  · change padBits n (SPauli.X j).op = _
    rw [X_op, X_op]
    apply ext_bits <;> intro i
    · rw [xPart_pad, xPart_append, xPart_append]
      simp only [Pi.single_apply, Fin.ext_iff, Fin.val_castLE]
      split_ifs <;> first | rfl | omega
    · rw [zPart_pad, zPart_append, zPart_append]
      split_ifs <;> rfl

theorem embed_Z (hk : k ≤ n) (j : Fin k) : embed n (SPauli.Z j) = SPauli.Z (Fin.castLE hk j) := by
  ext1
  · exact (Z_phase j).trans (Z_phase _).symm
  · change padBits n (SPauli.Z j).op = _
    rw [Z_op, Z_op]
    apply ext_bits <;> intro i
    · rw [xPart_pad, xPart_append, xPart_append]
      split_ifs <;> rfl
    · rw [zPart_pad, zPart_append, zPart_append]
      simp only [Pi.single_apply, Fin.ext_iff, Fin.val_castLE]
      split_ifs <;> first | rfl | omega

/-! ## The first bits -/

theorem xPart_head (hk : k ≤ n) (u : Fin (n + n) → ZMod 2) (i : Fin k) : xPart (headBits k u) i = xPart u (Fin.castLE hk i) := by
  unfold headBits; dsimp only; rw [xPart_append, dif_pos (lt_of_lt_of_le i.isLt hk)]; rfl

theorem zPart_head (hk : k ≤ n) (u : Fin (n + n) → ZMod 2) (i : Fin k) : zPart (headBits k u) i = zPart u (Fin.castLE hk i) := by
  unfold headBits; dsimp only; rw [zPart_append, dif_pos (lt_of_lt_of_le i.isLt hk)]; rfl

/-- No X on qubits after the first `k`. -/
def Low (k : ℕ) (u : Fin (n + n) → ZMod 2) : Prop := ∀ i : Fin n, k ≤ i.val → xPart u i = 0

theorem sum_zx_head (hk : k ≤ n) (u : Fin (n + n) → ZMod 2) {v : Fin (n + n) → ZMod 2} (hv : Low k v) :
    (∑ i, zPart (headBits k u) i * xPart (headBits k v) i) = ∑ i, zPart u i * xPart v i := by
  rw [← sum_pad hk]
  refine Finset.sum_congr rfl fun i _ => ?_
  split_ifs with h
  · rw [xPart_head hk, zPart_head hk]; rfl
  · rw [hv i (by omega), mul_zero]

theorem sform_head (hk : k ≤ n) {u v : Fin (n + n) → ZMod 2} (hu : Low k u) (hv : Low k v) :
    sform (headBits k u) (headBits k v) = sform u v := by
  rw [sform_two, sform_two, sum_zx_head hk u hv, sum_zx_head hk v hu]

theorem countY_head (hk : k ≤ n) {u : Fin (n + n) → ZMod 2} (hu : Low k u) : countY (headBits k u) = countY u := by
  unfold countY
  rw [Finset.card_filter, Finset.card_filter, ← sum_pad hk]
  refine Finset.sum_congr rfl fun i _ => ?_
  split_ifs with h h1 h2 h2 h2
  all_goals first
    | rfl
    | (exfalso; rw [xPart_head hk, zPart_head hk] at h1; exact h2 h1)
    | (exfalso; rw [xPart_head hk, zPart_head hk] at h1; exact h1 h2)
    | (exfalso; exact h2.1 (hu i (by omega)))

/-! ## Z operators on the last qubits -/

/-- Products of `Z_b` for `b ≥ m`, with the sign `+`. -/
structure ZTail (m : ℕ) (p : SPauli n) : Prop where
  phase : p.phase = 0
  x : ∀ i, xPart p.op i = 0
  z : ∀ i : Fin n, i.val < m → zPart p.op i = 0

theorem ZTail.one (m : ℕ) : ZTail m (1 : SPauli n) := ⟨rfl, fun _ => rfl, fun _ _ => rfl⟩

theorem ZTail.mul {m : ℕ} {p q : SPauli n} (hp : ZTail m p) (hq : ZTail m q) : ZTail m (p * q) where
  phase := by
    rw [mul_phase, hp.phase, hq.phase, Finset.sum_eq_zero fun i _ => by rw [hq.x i, mul_zero], double_zero]; rfl
  x i := by rw [mul_op, SPauli.xPart_add, hp.x, hq.x, add_zero]
  z i hi := by rw [mul_op, SPauli.zPart_add, hp.z i hi, hq.z i hi, add_zero]

theorem ZTail.Z {m : ℕ} {b : Fin n} (hb : m ≤ b.val) : ZTail m (SPauli.Z b) where
  phase := Z_phase b
  x i := by rw [Z_op, xPart_append]; rfl
  z i hi := by
    rw [Z_op, zPart_append, Pi.single_apply, if_neg]
    intro e; rw [e] at hi; omega

theorem ZTail.eq {m : ℕ} {p : SPauli n} (h : ZTail m p) : p = powProd SPauli.Z (zPart p.op) := by
  rw [powProd_Z]
  ext1
  · exact h.phase
  · rw [← append_parts p.op]
    change _ = Fin.append 0 (zPart _)
    rw [funext h.x, zPart_append]; rfl

theorem Generated.of_list {G : SPauli n → Prop} (l : List (SPauli n)) (h : ∀ p ∈ l, p = 1 ∨ G p) : Generated G l.prod := by
  induction l using List.reverseRecOn with
  | nil => exact Generated.one
  | append_singleton l p ih =>
    rw [List.prod_append, List.prod_singleton]
    have ih := ih fun p hp => h p (List.mem_append_left _ hp)
    rcases h p (by simp) with rfl | hp
    · rw [mul_one]; exact ih
    · exact Generated.mul ih hp

/-- The stabilizer group is the image of products of `Z_b`. -/
theorem inStabilizerGroup_iff {E : Tableau n} (hE : E.Valid) {S : Rows (ZMod 2) (n + n)} {m : ℕ}
    (hS : ∀ p, (∃ s ∈ S, p = plus s) ↔ ∃ b : Fin n, m ≤ b.val ∧ p = E.zs b) (p : SPauli n) :
    InStabilizerGroup S p ↔ ∃ q, ZTail m q ∧ p = E.apply q := by
  unfold InStabilizerGroup
  constructor
  · intro h
    induction h with
    | one => exact ⟨1, ZTail.one m, hE.isHom.one.symm⟩
    | mul _ hq ih =>
      obtain ⟨q, hq', rfl⟩ := ih
      obtain ⟨b, hb, rfl⟩ := (hS _).1 hq
      exact ⟨q * SPauli.Z b, hq'.mul (ZTail.Z hb), by rw [hE.isHom.mul, Tableau.apply_Z]⟩
  · rintro ⟨q, hq, rfl⟩
    rw [hq.eq, hE.isHom.powProd]
    unfold powProd
    apply Generated.of_list
    intro p hp
    rw [List.mem_ofFn] at hp
    obtain ⟨j, rfl⟩ := hp
    unfold Tableau.bitPow
    split_ifs with h
    · exact Or.inl rfl
    · right
      change ∃ s ∈ S, E.apply (SPauli.Z j) = plus s
      rw [Tableau.apply_Z]
      refine (hS _).2 ⟨j, ?_, rfl⟩
      by_contra hj
      exact h (hq.z j (by omega))

instance finite_sPauli : Finite (SPauli n) :=
  Finite.of_injective (fun p : SPauli n => (p.phase, p.op)) fun p q h => by
    simp only [Prod.mk.injEq] at h
    exact SPauli.ext h.1 h.2

/-- An injective map of a finite set to itself. -/
theorem ztail_iff {δ : SPauli n → SPauli n} (hinj : Function.Injective δ) {m : ℕ} (h : ∀ q, ZTail m q → ZTail m (δ q))
    (q : SPauli n) : ZTail m (δ q) ↔ ZTail m q := by
  refine ⟨fun hq => ?_, h q⟩
  let f : {q : SPauli n // ZTail m q} → {q : SPauli n // ZTail m q} := fun q => ⟨δ q, h q q.2⟩
  have hf : Function.Injective f := fun a b e => Subtype.ext (hinj (congrArg Subtype.val e))
  obtain ⟨q', e⟩ := Finite.injective_iff_surjective.1 hf ⟨δ q, hq⟩
  have : δ q' = δ q := congrArg Subtype.val e
  rw [← hinj this]; exact q'.2

/-! ## Induction -/

theorem pauli_induction {P : SPauli n → Prop} (hs : ∀ a, P (SPauli.scalar a)) (hx : ∀ j, P (SPauli.X j))
    (hz : ∀ j, P (SPauli.Z j)) (hm : ∀ p q, P p → P q → P (p * q)) (p : SPauli n) : P p := by
  have hl : ∀ l : List (SPauli n), (∀ p ∈ l, P p) → P l.prod := by
    intro l hl
    induction l with
    | nil => exact hs 0
    | cons a l ih => exact hm _ _ (hl a List.mem_cons_self) (ih fun p hp => hl p (List.mem_cons_of_mem _ hp))
  rw [factor p]
  refine hm _ _ (hs _) (hm _ _ (hl _ ?_) (hl _ ?_)) <;> intro q hq <;> rw [List.mem_ofFn] at hq <;>
    obtain ⟨j, rfl⟩ := hq <;> unfold Tableau.bitPow <;> split_ifs
  · exact hs 0
  · exact hx j
  · exact hs 0
  · exact hz j

/-! ## Decoded tableaus -/

/-- What the decoded tableau of a circuit that preserves the code looks like, modulo signs. -/
structure Sectors (k g : ℕ) (T : Tableau n) : Prop where
  kg : k + g ≤ n
  lx : ∀ j : Fin n, j.val < k → (∀ i : Fin n, k ≤ i.val → xPart (T.xs j).op i = 0) ∧
    ∀ i : Fin n, k ≤ i.val → i.val < k + g → zPart (T.xs j).op i = 0
  lz : ∀ j : Fin n, j.val < k → (∀ i : Fin n, k ≤ i.val → xPart (T.zs j).op i = 0) ∧
    ∀ i : Fin n, k ≤ i.val → i.val < k + g → zPart (T.zs j).op i = 0
  gx : ∀ j : Fin n, k ≤ j.val → j.val < k + g → (∀ i : Fin n, k + g ≤ i.val → xPart (T.xs j).op i = 0) ∧
    ∀ i : Fin n, i.val < k → xPart (T.xs j).op i = 0 ∧ zPart (T.xs j).op i = 0
  gz : ∀ j : Fin n, k ≤ j.val → j.val < k + g → (∀ i : Fin n, k + g ≤ i.val → xPart (T.zs j).op i = 0) ∧
    ∀ i : Fin n, i.val < k → xPart (T.zs j).op i = 0 ∧ zPart (T.zs j).op i = 0
  sz : ∀ j : Fin n, k + g ≤ j.val → (∀ i, xPart (T.zs j).op i = 0) ∧ ∀ i : Fin n, i.val < k + g → zPart (T.zs j).op i = 0

theorem Sectors.ok {T : Tableau n} (h : Sectors k g T) : sectorsOk k g T = true := by
  unfold sectorsOk
  simp only [Bool.and_eq_true, decide_eq_true_eq]
  refine ⟨⟨⟨⟨⟨⟨?_, ?_⟩, ?_⟩, ?_⟩, ?_⟩, ?_⟩, ?_⟩
  · intro i j _ hj
    by_cases h1 : i.val < k
    · exact (h.lz i h1).1 j (by omega)
    · by_cases h2 : i.val < k + g
      · exact (h.gz i (by omega) h2).1 j hj
      · exact (h.sz i (by omega)).1 j
  · intro i j hi hj; exact (h.lx i hi).1 j (by omega)
  · intro i j hi hj; exact (h.gx i hi.1 hi.2).1 j hj
  · intro i j hi hj; exact ((h.gx i hi.1 hi.2).2 j hj).1
  · intro i j hi hj; exact ((h.gx i hi.1 hi.2).2 j hj).2
  · intro i j hi hj; exact ((h.gz i hi.1 hi.2).2 j hj).1
  · intro i j hi hj; exact ((h.gz i hi.1 hi.2).2 j hj).2

theorem Sectors.congr {T U : Tableau n} (h : Sectors k g T) (hx : ∀ j, (U.xs j).op = (T.xs j).op)
    (hz : ∀ j, (U.zs j).op = (T.zs j).op) : Sectors k g U where
  kg := h.kg
  lx j := by rw [hx]; exact h.lx j
  lz j := by rw [hz]; exact h.lz j
  gx j := by rw [hx]; exact h.gx j
  gz j := by rw [hz]; exact h.gz j
  sz j := by rw [hz]; exact h.sz j

theorem Sectors.block_xs {T : Tableau n} (h : Sectors k g T) (j : Fin k) :
    (T.block k).xs j = SPauli.signed (SPauli.isMinus (T.xs (Fin.castLE (by have := h.kg; omega) j)))
      (headBits k (T.xs (Fin.castLE (by have := h.kg; omega) j)).op) := by
  unfold Tableau.block
  exact dif_pos (by have := h.kg; have := j.isLt; omega)

theorem Sectors.block_zs {T : Tableau n} (h : Sectors k g T) (j : Fin k) :
    (T.block k).zs j = SPauli.signed (SPauli.isMinus (T.zs (Fin.castLE (by have := h.kg; omega) j)))
      (headBits k (T.zs (Fin.castLE (by have := h.kg; omega) j)).op) := by
  unfold Tableau.block
  exact dif_pos (by have := h.kg; have := j.isLt; omega)

theorem Sectors.block_valid {T : Tableau n} (h : Sectors k g T) (hT : T.Valid) : (T.block k).Valid := by
  have hk : k ≤ n := by have := h.kg; omega
  have lx : ∀ j : Fin k, Low k (T.xs (Fin.castLE hk j)).op := fun j => (h.lx _ j.isLt).1
  have lz : ∀ j : Fin k, Low k (T.zs (Fin.castLE hk j)).op := fun j => (h.lz _ j.isLt).1
  constructor
  · intro j; rw [h.block_xs]; exact signed_signed _ _
  · intro j; rw [h.block_zs]; exact signed_signed _ _
  · intro i j; rw [h.block_xs, h.block_xs, signed_op, signed_op, sform_head hk (lx i) (lx j), hT.xx]
  · intro i j; rw [h.block_zs, h.block_zs, signed_op, signed_op, sform_head hk (lz i) (lz j), hT.zz]
  · intro i j
    rw [h.block_xs, h.block_zs, signed_op, signed_op, sform_head hk (lx i) (lz j), hT.xz]
    exact if_congr (by simp [Fin.ext_iff]) rfl rfl

/-- A signed string is its first bits and a product of `Z_b`. -/
theorem split_head (hkg : k + g ≤ n) {p : SPauli n} (hp : Signed p) (hx : Low k p.op)
    (hz : ∀ i : Fin n, k ≤ i.val → i.val < k + g → zPart p.op i = 0) :
    ∃ s, ZTail (k + g) s ∧ p = embed n (SPauli.signed (SPauli.isMinus p) (headBits k p.op) : SPauli k) * s := by
  have hk : k ≤ n := by omega
  have ex : ∀ i, xPart (padBits n (headBits k p.op)) i = xPart p.op i := by
    intro i
    rw [xPart_pad]
    split_ifs with h
    · rw [xPart_head hk]; rfl
    · exact (hx i (by omega)).symm
  refine ⟨⟨0, p.op + padBits n (headBits k p.op)⟩, ⟨rfl, fun i => ?_, fun i hi => ?_⟩, ?_⟩
  · rw [SPauli.xPart_add, ex, CharTwo.add_self_eq_zero]
  · rw [SPauli.zPart_add, zPart_pad]
    split_ifs with h
    · rw [zPart_head hk]; exact CharTwo.add_self_eq_zero _
    · rw [hz i (by omega) hi, add_zero]
  · have e1 : (SPauli.signed (SPauli.isMinus p) (headBits k p.op) : SPauli k).phase = p.phase := by
      conv_rhs => rw [eq_signed hp]
      unfold SPauli.signed
      rw [scalar_mul_phase, scalar_mul_phase]
      congr 1
      change ((countY _ : ℕ) : ZMod 4) = (countY _ : ℕ)
      rw [countY_head hk hx]
    ext1
    · rw [mul_phase]
      change p.phase = (SPauli.signed (SPauli.isMinus p) (headBits k p.op) : SPauli k).phase + 0 + double _
      rw [e1, Finset.sum_eq_zero, double_zero, add_zero, add_zero]
      intro i _
      rw [SPauli.xPart_add, ex, CharTwo.add_self_eq_zero, mul_zero]
    · rw [mul_op]
      change p.op = padBits n (SPauli.signed _ _ : SPauli k).op + _
      rw [signed_op]
      change p.op = padBits n (headBits k p.op) + (p.op + padBits n (headBits k p.op))
      rw [add_left_comm, add_self_op, add_zero]

theorem commute_embed_ztail (hkg : k + g ≤ n) (P : SPauli k) {s : SPauli n} (hs : ZTail (k + g) s) :
    embed n P * s = s * embed n P := by
  refine ((commute_iff _ _).2 ?_).eq
  rw [sform_two]
  change (∑ i, zPart (padBits n P.op) i * xPart s.op i) + ∑ i, zPart s.op i * xPart (padBits n P.op) i = 0
  rw [Finset.sum_eq_zero fun i _ => by rw [hs.x, mul_zero], Finset.sum_eq_zero, add_zero]
  intro i _
  by_cases h : i.val < k
  · rw [hs.z i (by omega), zero_mul]
  · rw [xPart_pad, dif_neg h, mul_zero]

/-- The block is the action on logical qubits, modulo products of `Z_b`. -/
theorem Sectors.block_apply {T : Tableau n} (h : Sectors k g T) (hT : T.Valid) (P : SPauli k) :
    ∃ s, ZTail (k + g) s ∧ T.apply (embed n P) = embed n ((T.block k).apply P) * s := by
  have hk : k ≤ n := by have := h.kg; omega
  have hE := isHom_embed (k := k) hk
  have hB := (h.block_valid hT).isHom
  induction P using pauli_induction with
  | hs a => exact ⟨1, ZTail.one _, by rw [hE.scalar, hT.isHom.scalar, hB.scalar, hE.scalar, mul_one]⟩
  | hx j =>
    rw [embed_X hk, Tableau.apply_X, Tableau.apply_X, h.block_xs]
    exact split_head h.kg (hT.sx _) (h.lx _ j.isLt).1 (h.lx _ j.isLt).2
  | hz j =>
    rw [embed_Z hk, Tableau.apply_Z, Tableau.apply_Z, h.block_zs]
    exact split_head h.kg (hT.sz _) (h.lz _ j.isLt).1 (h.lz _ j.isLt).2
  | hm p q hp hq =>
    obtain ⟨s, hs, e⟩ := hp
    obtain ⟨t, ht, e'⟩ := hq
    refine ⟨s * t, hs.mul ht, ?_⟩
    rw [hE.mul, hT.isHom.mul, e, e', hB.mul, hE.mul]
    have := commute_embed_ztail h.kg ((T.block k).apply q) hs
    calc _ = embed n ((T.block k).apply p) * (s * embed n ((T.block k).apply q)) * t := by simp only [mul_assoc]
      _ = _ := by rw [← this]; simp only [mul_assoc]

end QLDPC
