import Verif.Lemmas.Wiring
import Verif.Lemmas.CssConcat

/-!
# Weights of logical operators of concatenated qudit codes
-/

namespace QLDPC

open Spec

variable {F : Type} [Field F] [DecidableEq F] {n m N : ℕ}

/-- The operator on block `b` of `n` qudits. -/
def quditBlock (n b : ℕ) (v : Fin (N + N) → F) : Fin (n + n) → F :=
  Fin.append (bitBlock n b (xPart v)) (bitBlock n b (zPart v))

@[simp] theorem xPart_quditBlock (b : ℕ) (v : Fin (N + N) → F) : xPart (quditBlock n b v) = bitBlock n b (xPart v) := by
  funext i; simp [xPart, quditBlock]

@[simp] theorem zPart_quditBlock (b : ℕ) (v : Fin (N + N) → F) : zPart (quditBlock n b v) = bitBlock n b (zPart v) := by
  funext i
  change Fin.append _ _ (Fin.natAdd n i) = _
  rw [Fin.append_right]

theorem sweight_quditBlocks {B : ℕ} (hN : N = n * B) (v : Fin (N + N) → F) :
    sweight v = ∑ b : Fin B, sweight (quditBlock n b v) := by
  simp only [sweight, Finset.card_filter]
  rw [sum_bitBlocks hN]
  refine Finset.sum_congr rfl fun b _ => Finset.sum_congr rfl fun q _ => ?_
  rw [xPart_quditBlock, zPart_quditBlock]
  have e : ∀ (u : Fin N → F) h, u ⟨n * b.val + q.val, h⟩ = bitBlock n b u q := by
    intro u h
    unfold bitBlock
    rw [dif_pos h]
  simp only [e]

theorem xPart_onQudits (off : ℕ) (r : Fin (n + n) → F) : xPart (onQudits off r : Fin (N + N) → F) = onBits off (xPart r) := by
  funext i; simp [xPart, onQudits, onBits]

theorem zPart_onQudits (off : ℕ) (r : Fin (n + n) → F) : zPart (onQudits off r : Fin (N + N) → F) = onBits off (zPart r) := by
  funext i
  change (onQudits off r : Fin (N + N) → F) (Fin.natAdd N i) = _
  unfold onQudits
  rw [Fin.append_right]
  rfl

theorem quditBlock_onQudits {B : ℕ} (hN : N = n * B) (b c : ℕ) (hb : b < B) (r : Fin (n + n) → F) :
    quditBlock n b (onQudits (n * c) r : Fin (N + N) → F) = if b = c then r else 0 := by
  apply ext_parts
  · rw [xPart_quditBlock, xPart_onQudits, bitBlock_onBits hN _ _ hb]
    split <;> rfl
  · rw [zPart_quditBlock, zPart_onQudits, bitBlock_onBits hN _ _ hb]
    split <;> rfl

theorem sform_eq_dot (p q : Fin (n + n) → F) : sform p q = dot (xPart p) (zPart q) - dot (zPart p) (xPart q) := by
  unfold sform dot
  rw [Finset.sum_sub_distrib]

theorem sform_onQudits {B : ℕ} (hN : N = n * B) (c : ℕ) (hc : c < B) (r : Fin (n + n) → F) (v : Fin (N + N) → F) :
    sform (onQudits (n * c) r) v = sform r (quditBlock n c v) := by
  rw [sform_eq_dot, sform_eq_dot, xPart_onQudits, zPart_onQudits, dot_onBits hN c hc, dot_onBits hN c hc,
    xPart_quditBlock, zPart_quditBlock]

theorem encode_append {M : ℕ} (X Z : Fin M → Fin (N + N) → F) (p q : Fin M → F) :
    encode X Z (Fin.append p q) = ∑ j, (p j • X j + q j • Z j) := by
  unfold encode
  refine Finset.sum_congr rfl fun j _ => ?_
  have e1 : xPart (Fin.append p q) j = p j := by
    change Fin.append p q (Fin.castAdd M j) = _
    rw [Fin.append_left]
  have e2 : zPart (Fin.append p q) j = q j := by
    change Fin.append p q (Fin.natAdd M j) = _
    rw [Fin.append_right]
  rw [e1, e2]

/-- `quditBlock` as a linear map. -/
def quditBlockₗ (n b : ℕ) : (Fin (N + N) → F) →ₗ[F] (Fin (n + n) → F) where
  toFun := quditBlock n b
  map_add' p q := by
    apply ext_parts
    · rw [xPart_quditBlock, xPart_add, bitBlock_add, xPart_add, xPart_quditBlock, xPart_quditBlock]
    · rw [zPart_quditBlock, zPart_add, bitBlock_add, zPart_add, zPart_quditBlock, zPart_quditBlock]
  map_smul' x p := by
    have e : ∀ u : Fin N → F, bitBlock n b (x • u) = x • bitBlock n b u := by
      intro u
      funext q
      simp only [bitBlock, Pi.smul_apply]
      split
      · rfl
      · rw [smul_zero]
    apply ext_parts
    · rw [xPart_quditBlock, xPart_smul, e]; exact (xPart_smul x (quditBlock n b p)).symm ▸ by rw [xPart_quditBlock]
    · rw [zPart_quditBlock, zPart_smul, e]; exact (zPart_smul x (quditBlock n b p)).symm ▸ by rw [zPart_quditBlock]

/-- `onQudits` as a linear map. -/
def onQuditsₗ (off : ℕ) : (Fin (n + n) → F) →ₗ[F] (Fin (N + N) → F) where
  toFun := onQudits off
  map_add' p q := by
    have e : ∀ u v : Fin n → F, (onBits off (u + v) : Fin N → F) = onBits off u + onBits off v := by
      intro u v; funext i; simp only [onBits, Pi.add_apply]; split <;> simp
    apply ext_parts
    · rw [xPart_add, xPart_onQudits, xPart_onQudits, xPart_onQudits, xPart_add, e]
    · rw [zPart_add, zPart_onQudits, zPart_onQudits, zPart_onQudits, zPart_add, e]
  map_smul' x p := by
    have e : ∀ u : Fin n → F, (onBits off (x • u) : Fin N → F) = x • onBits off u := by
      intro u; funext i; simp only [onBits, Pi.smul_apply]; split <;> simp
    apply ext_parts
    · rw [xPart_onQudits, xPart_smul, e]; change _ = x • xPart (onQudits off p : Fin (N + N) → F); rw [xPart_onQudits]
    · rw [zPart_onQudits, zPart_smul, e]; change _ = x • zPart (onQudits off p : Fin (N + N) → F); rw [zPart_onQudits]

theorem mem_blockCopies {num : ℕ} {R : Rows F (n + n)} {v : Fin (N + N) → F} :
    v ∈ (blockCopies num R : Rows F (N + N)) ↔ ∃ b < num, ∃ r ∈ R, v = onQudits (n * b) r := by
  simp only [blockCopies, List.mem_flatMap, List.mem_range, List.mem_map]
  exact exists_congr fun b => and_congr_right fun _ => exists_congr fun r => and_congr_right fun _ => eq_comm

theorem onQudits_mem_rowSpan {num b : ℕ} (hb : b < num) {R : Rows F (n + n)} {r : Fin (n + n) → F} (hr : r ∈ rowSpan R) :
    (onQudits (n * b) r : Fin (N + N) → F) ∈ rowSpan (blockCopies num R : Rows F (N + N)) := by
  have : rowSpan R ≤ (rowSpan (blockCopies num R : Rows F (N + N))).comap (onQuditsₗ (n * b)) := by
    rw [rowSpan_le]
    intro r hr
    exact subset_rowSpan (mem_blockCopies.2 ⟨b, hb, r, hr, rfl⟩)
  exact this hr

theorem sum_onQudits {B : ℕ} (hN : N = n * B) (v : Fin (N + N) → F) :
    v = ∑ b : Fin B, onQudits (n * b.val) (quditBlock n b v) := by
  have hall : ∀ u u' : Fin N → F, (∀ b < B, bitBlock n b u = bitBlock n b u') → u = u' := by
    intro u u' h
    funext i
    have hn : 0 < n := by
      rcases Nat.eq_zero_or_pos n with h0 | h0
      · have := i.isLt; subst h0; omega
      · exact h0
    have hb : i.val / n < B := by
      rw [Nat.div_lt_iff_lt_mul hn, Nat.mul_comm, ← hN]; exact i.isLt
    have := congrFun (h _ hb) ⟨i.val % n, Nat.mod_lt _ hn⟩
    simp only [bitBlock, Nat.div_add_mod, i.isLt, dif_pos] at this
    exact this
  have hblock : ∀ b < B, quditBlock n b v = quditBlock n b
      (∑ c : Fin B, (onQudits (n * c.val) (quditBlock n c v) : Fin (N + N) → F)) := by
    intro b hb
    change _ = quditBlockₗ n b _
    rw [map_sum, Finset.sum_eq_single ⟨b, hb⟩]
    · change _ = quditBlock n b _
      rw [quditBlock_onQudits hN _ _ hb, if_pos rfl]
    · intro c _ hc
      change quditBlock n b _ = 0
      rw [quditBlock_onQudits hN _ _ hb, if_neg (fun h => hc (Fin.ext h.symm))]
    · simp
  apply ext_parts
  · refine hall _ _ fun b hb => ?_
    have := congrArg xPart (hblock b hb)
    rwa [xPart_quditBlock, xPart_quditBlock] at this
  · refine hall _ _ fun b hb => ?_
    have := congrArg zPart (hblock b hb)
    rwa [zPart_quditBlock, zPart_quditBlock] at this

/-- A block of a nontrivial logical operator of stacked copies is nontrivial. -/
theorem nontrivial_block {A : ℕ} (hN : N = n * A) {R : Rows F (n + n)} {t : Fin (N + N) → F}
    (ht : IsNontrivialLogical (blockCopies A R : Rows F (N + N)) t) : ∃ a < A, IsNontrivialLogical R (quditBlock n a t) := by
  obtain ⟨h1, h2⟩ := ht
  have hcomm : ∀ a < A, ∀ s, IsCombination R s → (∀ r ∈ R, sform r s = 0) → sform s (quditBlock n a t) = 0 := by
    intro a ha s hs hr
    rw [← sform_onQudits hN a ha]
    refine h1 _ ((isCombination_iff _ _).2 (onQudits_mem_rowSpan ha ((isCombination_iff _ _).1 hs))) ?_
    intro x hx
    obtain ⟨b, hb, r, hr', rfl⟩ := mem_blockCopies.1 hx
    rw [sform_onQudits hN b hb, quditBlock_onQudits hN _ _ hb]
    split
    · exact hr r hr'
    · rw [sform_eq_dot]; simp [dot, xPart, zPart]
  by_contra hcon
  push Not at hcon
  apply h2
  rw [isCombination_iff, sum_onQudits hN t]
  refine Submodule.sum_mem _ fun a _ => onQudits_mem_rowSpan a.isLt ?_
  by_contra hn
  exact hcon a a.isLt ⟨hcomm a a.isLt, fun h => hn ((isCombination_iff _ _).1 h)⟩

/-- Operators of a code concatenated from `B` inner blocks of `n` qudits and `A` outer blocks of `m` qudits: if the
qudits of an outer block are logical qudits of different inner blocks, distances multiply. -/
theorem concat_sweight {M A B : ℕ} (hN : N = n * B) (hM : M = m * A) {R : Rows F (n + n)} {K : Rows F (m + m)}
    {X Z : Fin M → Fin (N + N) → F}
    (hI : LogComplete (blockCopies B R) (List.ofFn X) (List.ofFn Z))
    (c : Fin M → ℕ) (x z : Fin M → Fin (n + n) → F) (hc : ∀ j, c j < B)
    (hX : ∀ j, X j = onQudits (n * c j) (x j)) (hZ : ∀ j, Z j = onQudits (n * c j) (z j))
    (hinj : ∀ i j : Fin M, i.val / m = j.val / m → c i = c j → i = j)
    {d1 d2 : ℕ} (h1 : ∀ v, IsNontrivialLogical R v → d1 ≤ sweight v)
    (h2 : ∀ v, IsNontrivialLogical K v → d2 ≤ sweight v) (p : Fin (N + N) → F)
    (hp : IsNontrivialLogical (blockCopies B R ++ (blockCopies A K).map (encode X Z)) p) : d1 * d2 ≤ sweight p := by
  have hpair : ∀ i j, sform (X i) (Z j) = if i = j then 1 else 0 := by
    intro i j
    have := hI.basis.pair i j (by simp) (by simp)
    simp only [List.getElem_ofFn, Fin.eta] at this
    rw [this]
    simp only [Fin.ext_iff]
  have hX' : ∀ i, X i ∈ List.ofFn X := fun i => by rw [List.mem_ofFn]; exact ⟨i, rfl⟩
  have hZ' : ∀ i, Z i ∈ List.ofFn Z := fun i => by rw [List.mem_ofFn]; exact ⟨i, rfl⟩
  have hs : ∀ p q, sform (encode X Z p) (encode X Z q) = sform p q :=
    sform_encode hpair (fun i j => hI.basis.xx _ (hX' i) _ (hX' j)) (fun i j => hI.basis.zz _ (hZ' i) _ (hZ' j))
  have hAe : ∀ r ∈ (blockCopies B R : Rows F (N + N)), ∀ q, sform r (encode X Z q) = 0 := by
    intro r hr q
    unfold encode
    rw [sform_sum_right]
    refine Finset.sum_eq_zero fun i _ => ?_
    rw [sform_add_right, sform_smul_right, sform_smul_right, hI.basis.commX r hr _ (hX' i),
      hI.basis.commZ r hr _ (hZ' i)]
    simp
  obtain ⟨hp1, hp2⟩ := hp
  -- the operator commutes with the stabilizers of the inner blocks
  have hstab : ∀ s ∈ rowSpan (blockCopies B R : Rows F (N + N)),
      (∀ r ∈ (blockCopies B R : Rows F (N + N)), sform r s = 0) → sform s p = 0 := by
    intro s hs1 hs2
    refine hp1 s ((isCombination_iff _ _).2 ?_) ?_
    · rw [rowSpan_append']; exact Submodule.mem_sup_left hs1
    · intro r hr
      rcases List.mem_append.1 hr with hr | hr
      · exact hs2 r hr
      · obtain ⟨o, -, rfl⟩ := List.mem_map.1 hr
        rw [sform_comm, sform_span_left (fun r hr => hAe r hr o) hs1, neg_zero]
  -- gauge operators of the inner blocks, and an operator of the outer blocks
  obtain ⟨g, hg, t, rfl⟩ : ∃ g ∈ rowSpan (blockCopies B R : Rows F (N + N)), ∃ t, p = g + encode X Z t := by
    have := (hI.sup_eq p).1 fun s hs => by
      obtain ⟨h3, h4⟩ := (mem_subsystemStabilizers _ s).1 hs
      exact hstab s h3 h4
    obtain ⟨g, hg, l, hl, rfl⟩ := Submodule.mem_sup.1 this
    refine ⟨g, hg, ?_⟩
    suffices h : rowSpan (List.ofFn X ++ List.ofFn Z) ≤ LinearMap.range (encodeₗ X Z) by
      obtain ⟨t, ht⟩ := h hl
      exact ⟨t, by rw [← ht]; rfl⟩
    rw [rowSpan_le]
    intro r hr
    rcases List.mem_append.1 hr with hr | hr
    · obtain ⟨j, rfl⟩ := List.mem_ofFn.1 hr
      refine ⟨Fin.append (Pi.single j 1) 0, ?_⟩
      change encode X Z _ = _
      rw [encode_append]
      simp [Pi.single_apply, ite_smul]
    · obtain ⟨j, rfl⟩ := List.mem_ofFn.1 hr
      refine ⟨Fin.append 0 (Pi.single j 1), ?_⟩
      change encode X Z _ = _
      rw [encode_append]
      simp [Pi.single_apply, ite_smul]
  have hge : ∀ q, sform (encode X Z q) g = 0 := by
    intro q
    rw [sform_comm, sform_span_left (fun r hr => hAe r hr q) hg, neg_zero]
  have ht : IsNontrivialLogical (blockCopies A K : Rows F (M + M)) t := by
    constructor
    · intro o ho1 ho2
      have := hp1 (encode X Z o) ((isCombination_iff _ _).2 ?_) ?_
      · rwa [sform_add_right, hge, zero_add, hs] at this
      · rw [rowSpan_append']
        refine Submodule.mem_sup_right ?_
        have hle : rowSpan (blockCopies A K : Rows F (M + M)) ≤
            (rowSpan ((blockCopies A K).map (encode X Z))).comap (encodeₗ X Z) := by
          rw [rowSpan_le]
          intro r hr
          exact subset_rowSpan (List.mem_map.2 ⟨r, hr, rfl⟩)
        exact hle ((isCombination_iff _ _).1 ho1)
      · intro r hr
        rcases List.mem_append.1 hr with hr | hr
        · exact hAe r hr o
        · obtain ⟨r, hr, rfl⟩ := List.mem_map.1 hr
          rw [hs]; exact ho2 _ (by assumption)
    · intro h
      apply hp2
      rw [isCombination_iff, rowSpan_append']
      refine Submodule.add_mem_sup hg ?_
      have hle : rowSpan (blockCopies A K : Rows F (M + M)) ≤
          (rowSpan ((blockCopies A K).map (encode X Z))).comap (encodeₗ X Z) := by
        rw [rowSpan_le]
        intro r hr
        exact subset_rowSpan (List.mem_map.2 ⟨r, hr, rfl⟩)
      exact hle ((isCombination_iff _ _).1 h)
  -- an outer block with a nontrivial operator
  obtain ⟨a, ha, hta⟩ := nontrivial_block hM ht
  have hw := h2 _ hta
  have hlt : ∀ q : Fin m, m * a + q.val < M := by
    intro q
    subst hM
    calc m * a + q.val < m * a + m := by omega
      _ = m * (a + 1) := by ring
      _ ≤ m * A := Nat.mul_le_mul_left _ ha
  -- the logical operators of the inner blocks see it
  have hsx : ∀ j, sform (X j) (g + encode X Z t) = zPart t j := by
    intro j
    rw [sform_add_right, sform_comm (X j) g, sform_span_left (fun r hr => hI.basis.commX r hr _ (hX' j)) hg, neg_zero,
      zero_add]
    unfold encode
    rw [sform_sum_right, Finset.sum_eq_single j]
    · rw [sform_add_right, sform_smul_right, sform_smul_right, hI.basis.xx _ (hX' j) _ (hX' j), hpair, if_pos rfl]; simp
    · intro i _ hi
      rw [sform_add_right, sform_smul_right, sform_smul_right, hI.basis.xx _ (hX' j) _ (hX' i), hpair,
        if_neg (Ne.symm hi)]; simp
    · simp
  have hsz : ∀ j, sform (Z j) (g + encode X Z t) = -xPart t j := by
    intro j
    rw [sform_add_right, sform_comm (Z j) g, sform_span_left (fun r hr => hI.basis.commZ r hr _ (hZ' j)) hg, neg_zero,
      zero_add]
    unfold encode
    rw [sform_sum_right, Finset.sum_eq_single j]
    · rw [sform_add_right, sform_smul_right, sform_smul_right, hI.basis.zz _ (hZ' j) _ (hZ' j), sform_comm (Z j), hpair,
        if_pos rfl]; simp
    · intro i _ hi
      rw [sform_add_right, sform_smul_right, sform_smul_right, hI.basis.zz _ (hZ' j) _ (hZ' i), sform_comm (Z j), hpair,
        if_neg hi]; simp
    · simp
  have hlog : ∀ j, (∀ r ∈ R, sform r (x j) = 0) ∧ ∀ r ∈ R, sform r (z j) = 0 := by
    intro j
    constructor
    · intro r hr
      have := hI.basis.commX _ (mem_blockCopies.2 ⟨c j, hc j, r, hr, rfl⟩) _ (hX' j)
      rwa [hX j, sform_onQudits hN _ (hc j), quditBlock_onQudits hN _ _ (hc j), if_pos rfl] at this
    · intro r hr
      have := hI.basis.commZ _ (mem_blockCopies.2 ⟨c j, hc j, r, hr, rfl⟩) _ (hZ' j)
      rwa [hZ j, sform_onQudits hN _ (hc j), quditBlock_onQudits hN _ _ (hc j), if_pos rfl] at this
  have hin : ∀ j, (xPart t j ≠ 0 ∨ zPart t j ≠ 0) → d1 ≤ sweight (quditBlock n (c j) (g + encode X Z t)) := by
    intro j hj
    apply h1
    constructor
    · intro s hs1 hs2
      rw [← sform_onQudits hN _ (hc j)]
      refine hstab _ (onQudits_mem_rowSpan (hc j) ((isCombination_iff _ _).1 hs1)) ?_
      intro r hr
      obtain ⟨b, hb, r, hr', rfl⟩ := mem_blockCopies.1 hr
      rw [sform_onQudits hN b hb, quditBlock_onQudits hN _ _ hb]
      split
      · exact hs2 r hr'
      · rw [sform_eq_dot]; simp [dot, xPart, zPart]
    · intro hmem
      rw [isCombination_iff] at hmem
      have e1 := sform_span_left (hlog j).1 hmem
      have e2 := sform_span_left (hlog j).2 hmem
      rw [sform_comm, ← sform_onQudits hN _ (hc j), ← hX j, hsx, neg_eq_zero] at e1
      rw [sform_comm, ← sform_onQudits hN _ (hc j), ← hZ j, hsz, neg_neg] at e2
      rcases hj with hj | hj
      · exact hj e2
      · exact hj e1
  let S : Finset (Fin m) := Finset.univ.filter fun q => xPart (quditBlock m a t) q ≠ 0 ∨ zPart (quditBlock m a t) q ≠ 0
  have hS : S.card = sweight (quditBlock m a t) := rfl
  let f : Fin m → Fin B := fun q => ⟨c ⟨m * a + q.val, hlt q⟩, hc _⟩
  have hf : Function.Injective f := by
    intro p q h
    have hm : 0 < m := by have := p.isLt; omega
    have := hinj ⟨m * a + p.val, hlt p⟩ ⟨m * a + q.val, hlt q⟩
      (by simp only [Nat.mul_add_div hm, Nat.div_eq_of_lt p.isLt, Nat.div_eq_of_lt q.isLt]) (Fin.ext_iff.1 h)
    have := Fin.ext_iff.1 this
    apply Fin.ext
    simp only at this
    omega
  rw [sweight_quditBlocks hN]
  calc d1 * d2 ≤ d1 * S.card := Nat.mul_le_mul_left _ (hS ▸ hw)
    _ = ∑ _q ∈ S, d1 := by rw [Finset.sum_const, smul_eq_mul, Nat.mul_comm]
    _ ≤ ∑ q ∈ S, sweight (quditBlock n (f q) (g + encode X Z t)) := by
        refine Finset.sum_le_sum fun q hq => hin ⟨m * a + q.val, hlt q⟩ ?_
        have := (Finset.mem_filter.1 hq).2
        rw [xPart_quditBlock, zPart_quditBlock] at this
        simp only [bitBlock] at this
        rwa [dif_pos (hlt q), dif_pos (hlt q)] at this
    _ = ∑ b ∈ S.map ⟨f, hf⟩, sweight (quditBlock n b (g + encode X Z t)) := by
        rw [Finset.sum_map]; rfl
    _ ≤ _ := Finset.sum_le_sum_of_subset (Finset.subset_univ _)

end QLDPC
