import Verif.Lemmas.Concat

/-! Copies of a block, wiring and the encoding of outer operators. -/

set_option linter.unusedSectionVars false

namespace QLDPC

open Spec Props

variable {F : Type} [Field F] [DecidableEq F] {n m N : ℕ}

/-! ## Operators on some of the qudits -/

theorem onQudits_padL (off : ℕ) (r : Fin (n + n) → F) :
    (onQudits off (padL m r) : Fin (N + N) → F) = onQudits off r := by
  unfold onQudits
  rw [xPart_padL, zPart_padL]
  congr 1 <;>
  · funext q
    by_cases h : off ≤ q.val ∧ q.val - off < n
    · rw [dif_pos h, dif_pos ⟨h.1, by omega⟩]
      exact Fin.append_left _ _ (⟨q.val - off, h.2⟩ : Fin n)
    · rw [dif_neg h]
      split
      · rename_i h2
        have e : (⟨q.val - off, h2.2⟩ : Fin (n + m)) =
            Fin.natAdd n ⟨q.val - off - n, by omega⟩ := by
          apply Fin.ext; simp; omega
        rw [e, Fin.append_right]; rfl
      · rfl

theorem onQudits_padR (off : ℕ) (r : Fin (m + m) → F) :
    (onQudits off (padR n r) : Fin (N + N) → F) = onQudits (off + n) r := by
  unfold onQudits
  rw [xPart_padR, zPart_padR]
  congr 1 <;>
  · funext q
    by_cases h : off + n ≤ q.val ∧ q.val - (off + n) < m
    · rw [dif_pos h, dif_pos ⟨by omega, by omega⟩]
      have e : (⟨q.val - off, by omega⟩ : Fin (n + m)) =
          Fin.natAdd n ⟨q.val - (off + n), h.2⟩ := by
        apply Fin.ext; simp; omega
      rw [e, Fin.append_right]
    · rw [dif_neg h]
      split
      · rename_i h2
        have e : (⟨q.val - off, h2.2⟩ : Fin (n + m)) = Fin.castAdd m ⟨q.val - off, by omega⟩ := rfl
        rw [e, Fin.append_left]; rfl
      · rfl

theorem onQudits_self (r : Fin (n + n) → F) : onQudits 0 r = r := by
  unfold onQudits
  conv_rhs => rw [← append_parts r]
  congr 1 <;>
  · funext q
    rw [dif_pos ⟨Nat.zero_le _, by omega⟩]
    rfl

theorem blocksRows_onQudits {α : ℕ → Type} (f : ∀ n, α n → Rows F (n + n)) (l : List (Σ n, α n)) (off : ℕ) :
    (blocksRows f l).map (onQudits off : _ → Fin (N + N) → F) =
      blockRows off (l.map fun b => ⟨b.1, f b.1 b.2⟩) := by
  induction l generalizing off with
  | nil => rfl
  | cons b l ih =>
    have aux : ∀ {a b : ℕ} (A : Rows F (a + a)) (B : Rows F (b + b)),
        (A.map (padL b) ++ B.map (padR a)).map (onQudits off : _ → Fin (N + N) → F) =
          A.map (onQudits off) ++ B.map (onQudits (off + a)) := by
      intro a b A B
      rw [List.map_append, List.map_map, List.map_map]
      congr 1
      · exact List.map_congr_left fun r _ => onQudits_padL off r
      · exact List.map_congr_left fun r _ => onQudits_padR off r
    refine (aux (f b.1 b.2) (blocksRows f l)).trans ?_
    rw [ih]
    rfl

theorem blocksRows_eq {α : ℕ → Type} (f : ∀ n, α n → Rows F (n + n)) (l : List (Σ n, α n)) :
    blocksRows f l = blockRows 0 (l.map fun b => ⟨b.1, f b.1 b.2⟩) := by
  rw [← blocksRows_onQudits]
  conv_lhs => rw [← List.map_id (blocksRows f l)]
  exact List.map_congr_left fun r _ => (onQudits_self r).symm

theorem blockRows_replicate (num off : ℕ) (R : Rows F (n + n)) :
    (blockRows off (List.replicate num ⟨n, R⟩) : Rows F (N + N)) =
      (List.range num).flatMap fun b => R.map (onQudits (off + n * b)) := by
  induction num generalizing off with
  | zero => rfl
  | succ num ih =>
    rw [List.replicate_succ, blockRows, ih, List.range_succ_eq_map, List.flatMap_cons, List.flatMap_map]
    congr 1
    congr 1
    funext b
    rw [show off + n + n * b = off + n * (b + 1) by ring]

theorem blocksRows_replicate {α : ℕ → Type} (f : ∀ n, α n → Rows F (n + n)) (num : ℕ) (c : α n) :
    blocksRows f (List.replicate num ⟨n, c⟩) = blockCopies num (f n c) := by
  rw [blocksRows_eq, List.map_replicate, blockRows_replicate]
  simp only [Nat.zero_add]
  rfl

theorem blockCopies_one (R : Rows F (n + n)) : blockCopies 1 R = R := by
  unfold blockCopies
  simp only [List.range_one, List.flatMap_cons, List.flatMap_nil, List.append_nil, Nat.mul_zero]
  conv_rhs => rw [← List.map_id R]
  exact List.map_congr_left fun r _ => onQudits_self r

theorem length_blockCopies (num : ℕ) (R : Rows F (n + n)) :
    (blockCopies num R : Rows F (N + N)).length = num * R.length := by
  unfold blockCopies
  simp

theorem getElem?_blockCopies (num : ℕ) (R : Rows F (n + n)) (t : ℕ) (ht : t < num * R.length) :
    (blockCopies num R : Rows F (N + N))[t]? =
      (R[t % R.length]?).map (onQudits (n * (t / R.length))) := by
  induction num with
  | zero => omega
  | succ num ih =>
    have hs : (blockCopies (num + 1) R : Rows F (N + N)) =
        blockCopies num R ++ R.map (onQudits (n * num)) := by
      unfold blockCopies
      rw [List.range_succ, List.flatMap_append]
      simp
    rw [hs]
    have hl := length_blockCopies (N := N) num R
    by_cases h : t < num * R.length
    · rw [List.getElem?_append_left (by omega), ih h]
    · have h2 : t - num * R.length < R.length := by rw [Nat.succ_mul] at ht; omega
      have h3 : t = R.length * num + (t - num * R.length) := by rw [Nat.mul_comm R.length]; omega
      have h4 : t / R.length = num := by
        rw [h3, Nat.mul_add_div (by omega), Nat.div_eq_of_lt h2, Nat.add_zero]
      have h5 : t % R.length = t - num * R.length := by
        conv_lhs => rw [h3, Nat.mul_add_mod, Nat.mod_eq_of_lt h2]
      rw [List.getElem?_append_right (by omega), List.getElem?_map, hl, h4, h5]

/-! ## Copies of a code -/

theorem copies_spec (c : QCode F n) (LX LZ : Rows F (n + n)) (h : Valid c LX LZ) (num : ℕ) (hn : 1 ≤ num) :
    ∃ (N : ℕ) (s : QCode F N), copies c num = .ok ⟨N, s⟩ ∧ N = n * num ∧
      Valid s (blockCopies num LX) (blockCopies num LZ) ∧ s.isSub = c.isSub ∧
      s.matrix = blockCopies num c.matrix := by
  unfold copies
  by_cases h1 : 1 < num
  · rw [if_pos h1]
    obtain ⟨s, e, hv, hm, hs⟩ := valid_stack (List.replicate num ⟨n, c⟩)
      (by rw [Ne, List.replicate_eq_nil_iff]; omega)
      (fun c' hc' => by rw [List.eq_of_mem_replicate hc']; exact ⟨LX, LZ, h⟩)
    have hX := h.logicalsX
    have hZ := h.logicalsZ
    refine ⟨_, s, by rw [e]; rfl, ?_, ?_, ?_, ?_⟩
    · rw [blocksLen_eq, List.map_replicate, List.sum_replicate, smul_eq_mul, Nat.mul_comm]
    · rw [blocksRows_replicate, blocksRows_replicate] at hv
      rwa [hX, hZ] at hv
    · rw [hs]
      cases hb : c.isSub <;> simp [hb]; omega
    · rw [hm, blocksRows_replicate]
  · have : num = 1 := by omega
    subst this
    rw [if_neg h1]
    refine ⟨n, c, rfl, (Nat.mul_one n).symm, ?_, rfl, ?_⟩
    · rw [blockCopies_one, blockCopies_one]; exact h
    · rw [blockCopies_one]

/-! ## Wiring -/

theorem indexList_get {α : Type} (l : List α) (w : List ℕ) (h : ∀ i ∈ w, i < l.length) :
    ∃ out, indexList l w = some out ∧ out.length = w.length ∧
      ∀ i (hi : i < w.length) (ho : i < out.length), l[w[i]]? = some out[i] := by
  induction w with
  | nil => exact ⟨[], rfl, rfl, fun i hi => absurd hi (Nat.not_lt_zero _)⟩
  | cons a w ih =>
    obtain ⟨out, h1, h2, h3⟩ := ih fun i hi => h i (List.mem_cons_of_mem _ hi)
    have ha := h a List.mem_cons_self
    refine ⟨l[a] :: out, ?_, by simp [h2], ?_⟩
    · unfold indexList at h1 ⊢
      rw [List.mapM_cons, h1, List.getElem?_eq_getElem ha]
      rfl
    · intro i hi ho
      cases i with
      | zero => simp [List.getElem?_eq_getElem ha]
      | succ i => simpa using h3 i (by simpa using hi) (by simpa using ho)

theorem logComplete_wiring {M LX LZ LX' LZ' : Rows F (n + n)} (h : LogComplete M LX LZ) (w : List ℕ)
    (hw : w.Perm (List.range LX.length)) (hX : indexList LX w = some LX')
    (hZ : indexList LZ w = some LZ') : LogComplete M LX' LZ' := by
  have hlen : w.length = LX.length := by simpa using hw.length_eq
  have hlt : ∀ i ∈ w, i < LX.length := fun i hi => List.mem_range.1 (hw.mem_iff.1 hi)
  have hnd : w.Nodup := hw.nodup_iff.2 List.nodup_range
  obtain ⟨o1, e1, l1, g1⟩ := indexList_get LX w hlt
  obtain ⟨o2, e2, l2, g2⟩ := indexList_get LZ w (by rw [← h.basis.len]; exact hlt)
  rw [e1] at hX; rw [e2] at hZ
  cases hX; cases hZ
  have m1 : ∀ x ∈ LX', x ∈ LX := (indexList_spec e1).1
  have m2 : ∀ x ∈ LZ', x ∈ LZ := (indexList_spec e2).1
  refine ⟨⟨by omega, fun r hr l hl => h.basis.commX r hr l (m1 l hl),
    fun r hr l hl => h.basis.commZ r hr l (m2 l hl), ?_,
    fun p hp q hq => h.basis.xx p (m1 p hp) q (m1 q hq),
    fun p hp q hq => h.basis.zz p (m2 p hp) q (m2 q hq)⟩, ?_⟩
  · intro i j hi hj
    have hi' : i < w.length := by omega
    have hj' : j < w.length := by omega
    have a1 := g1 i hi' hi
    have a2 := g2 j hj' hj
    obtain ⟨b1, b2⟩ := List.getElem?_eq_some_iff.1 a1
    obtain ⟨c1, c2⟩ := List.getElem?_eq_some_iff.1 a2
    rw [← b2, ← c2, h.basis.pair _ _ b1 c1]
    have : w[i] = w[j] ↔ i = j := hnd.getElem_inj_iff
    simp only [this]
  · have := h.count
    omega

theorem permute_valid {c : QCode F n} {LX LZ : Rows F (n + n)} (h : Valid c LX LZ) (w : List ℕ)
    (hw : w.Perm (List.range LX.length)) : ∃ LX' LZ', indexList LX w = some LX' ∧
      indexList LZ w = some LZ' ∧ c.getLogicalOps.bind (permuteLogicals w) = some (LX' ++ LZ') ∧
      Valid { c with logicals? := some (LX' ++ LZ') } LX' LZ' := by
  have hlen : w.length = LX.length := by simpa using hw.length_eq
  have hlt : ∀ i ∈ w, i < LX.length := fun i hi => List.mem_range.1 (hw.mem_iff.1 hi)
  have hl := h.complete.basis.len
  obtain ⟨LX', e1, l1, g1⟩ := indexList_get LX w hlt
  obtain ⟨LZ', e2, l2, g2⟩ := indexList_get LZ w (by rw [← hl]; exact hlt)
  have hlog := logComplete_wiring h.log w hw e1 e2
  refine ⟨LX', LZ', e1, e2, ?_, rfl, isComplete_iff.2 hlog, h.comm, ?_⟩
  · rw [h.ops, Option.bind_some]
    unfold permuteLogicals
    dsimp only
    have : (LX ++ LZ).length / 2 = LX.length := by rw [List.length_append, ← hl]; omega
    rw [this, List.take_left' rfl, List.drop_left' rfl, e1, e2]
    rfl
  · have hd := h.dim
    unfold QCode.dimension at hd ⊢
    dsimp only
    cases hk : c.dim? with
    | some k => rw [hk] at hd; dsimp only at hd ⊢; omega
    | none => simp only [List.length_append]; omega

/-! ## Encoding -/

theorem vecMat_ofFn {k : ℕ} (c : Fin k → F) (G : Fin k → Fin n → F) :
    vecMat (List.ofFn c) (List.ofFn G) = ∑ i, c i • G i := by
  induction k with
  | zero => simp [vecMat_nil]
  | succ k ih => rw [List.ofFn_succ, List.ofFn_succ, vecMat_cons, ih, Fin.sum_univ_succ]

theorem vecMat_encode (X Z : Fin m → Fin (n + n) → F) (o : Fin (m + m) → F) :
    vecMat (List.ofFn o) (List.ofFn X ++ List.ofFn Z) = encode X Z o := by
  rw [← List.ofFn_fin_append, vecMat_ofFn, Fin.sum_univ_add]
  unfold encode
  rw [Finset.sum_add_distrib]
  congr 1 <;> refine Finset.sum_congr rfl fun i _ => ?_
  · rw [Fin.append_left]; rfl
  · rw [Fin.append_right]; rfl

/-- `encode` as a linear map -/
def encodeₗ (X Z : Fin m → Fin (n + n) → F) : (Fin (m + m) → F) →ₗ[F] (Fin (n + n) → F) where
  toFun := encode X Z
  map_add' p q := by
    unfold encode
    rw [← Finset.sum_add_distrib]
    refine Finset.sum_congr rfl fun i _ => ?_
    rw [xPart_add, zPart_add, Pi.add_apply, Pi.add_apply, add_smul, add_smul]
    abel
  map_smul' x p := by
    unfold encode
    rw [Finset.smul_sum]
    refine Finset.sum_congr rfl fun i _ => ?_
    rw [xPart_smul, zPart_smul, Pi.smul_apply, Pi.smul_apply, smul_add, smul_smul, smul_smul]
    rfl

theorem sform_encode {X Z : Fin m → Fin (n + n) → F}
    (hp : ∀ i j, sform (X i) (Z j) = if i = j then 1 else 0)
    (hx : ∀ i j, sform (X i) (X j) = 0) (hz : ∀ i j, sform (Z i) (Z j) = 0)
    (p q : Fin (m + m) → F) : sform (encode X Z p) (encode X Z q) = sform p q := by
  have h1 : ∀ i, sform (X i) (encode X Z q) = zPart q i := by
    intro i
    unfold encode
    rw [sform_sum_right, Finset.sum_eq_single i]
    · rw [sform_add_right, sform_smul_right, sform_smul_right, hx, hp, if_pos rfl]; simp
    · intro j _ hj
      rw [sform_add_right, sform_smul_right, sform_smul_right, hx, hp, if_neg (Ne.symm hj)]; simp
    · intro h; exact absurd (Finset.mem_univ i) h
  have h2 : ∀ i, sform (Z i) (encode X Z q) = -xPart q i := by
    intro i
    unfold encode
    rw [sform_sum_right, Finset.sum_eq_single i]
    · rw [sform_add_right, sform_smul_right, sform_smul_right, hz, sform_comm (Z i), hp, if_pos rfl]; simp
    · intro j _ hj
      rw [sform_add_right, sform_smul_right, sform_smul_right, hz, sform_comm (Z i), hp, if_neg hj]; simp
    · intro h; exact absurd (Finset.mem_univ i) h
  conv_lhs => unfold encode
  rw [sform_sum_left]
  unfold sform
  refine Finset.sum_congr rfl fun i _ => ?_
  change sform _ _ = _
  have := h1 i
  have := h2 i
  unfold encode at h1 h2
  rw [sform_add_left, sform_smul_left, sform_smul_left, h1, h2]
  ring

theorem logComplete_concat {A : Rows F (n + n)} {X Z : Fin m → Fin (n + n) → F}
    (hA : LogComplete A (List.ofFn X) (List.ofFn Z)) {B KX KZ : Rows F (m + m)}
    (hB : LogComplete B KX KZ) :
    LogComplete (A ++ B.map (encode X Z)) (KX.map (encode X Z)) (KZ.map (encode X Z)) := by
  have hp : ∀ i j, sform (X i) (Z j) = if i = j then 1 else 0 := by
    intro i j
    have := hA.basis.pair i j (by simp) (by simp)
    simp only [List.getElem_ofFn, Fin.eta] at this
    rw [this]
    simp only [Fin.ext_iff]
  have hX : ∀ i, X i ∈ List.ofFn X := fun i => by rw [List.mem_ofFn]; exact ⟨i, rfl⟩
  have hZ : ∀ i, Z i ∈ List.ofFn Z := fun i => by rw [List.mem_ofFn]; exact ⟨i, rfl⟩
  have hs : ∀ p q, sform (encode X Z p) (encode X Z q) = sform p q :=
    sform_encode hp (fun i j => hA.basis.xx _ (hX i) _ (hX j)) (fun i j => hA.basis.zz _ (hZ i) _ (hZ j))
  have hAe : ∀ r ∈ A, ∀ q, sform r (encode X Z q) = 0 := by
    intro r hr q
    unfold encode
    rw [sform_sum_right]
    refine Finset.sum_eq_zero fun i _ => ?_
    rw [sform_add_right, sform_smul_right, sform_smul_right, hA.basis.commX r hr _ (hX i),
      hA.basis.commZ r hr _ (hZ i)]
    simp
  have hj : Joint A LinearMap.id (encodeₗ X Z) :=
    ⟨fun _ _ => rfl, hs, fun p hp q => sform_span_left (fun r hr => hAe r hr q) hp⟩
  have h1 := hj.rank_eq B
  have h2 := hj.stab_rank B
  have e : A.map (LinearMap.id (R := F)) ++ B.map (encodeₗ X Z) = A ++ B.map (encode X Z) := by
    congr 1
    exact List.map_id A
  rw [e] at h1 h2
  have gen : ∀ {U : Rows F (m + m)}, (∀ r ∈ B, ∀ l ∈ U, sform r l = 0) →
      ∀ r ∈ A ++ B.map (encode X Z), ∀ l ∈ U.map (encode X Z), sform r l = 0 := by
    intro U hU r hr l hl
    obtain ⟨l, hl, rfl⟩ := List.mem_map.1 hl
    rcases List.mem_append.1 hr with hr | hr
    · exact hAe r hr l
    · obtain ⟨r, hr, rfl⟩ := List.mem_map.1 hr
      rw [hs]; exact hU r ‹_› l ‹_›
  refine ⟨⟨by simp [hB.basis.len], gen hB.basis.commX, gen hB.basis.commZ, ?_, ?_, ?_⟩, ?_⟩
  · intro i j hi hj
    simp only [List.getElem_map]
    rw [hs]
    exact hB.basis.pair i j (by simpa using hi) (by simpa using hj)
  · intro p hp q hq
    obtain ⟨p, hp', rfl⟩ := List.mem_map.1 hp
    obtain ⟨q, hq', rfl⟩ := List.mem_map.1 hq
    rw [hs]; exact hB.basis.xx p hp' q hq'
  · intro p hp q hq
    obtain ⟨p, hp', rfl⟩ := List.mem_map.1 hp
    obtain ⟨q, hq', rfl⟩ := List.mem_map.1 hq
    rw [hs]; exact hB.basis.zz p hp' q hq'
  · have h3 := hA.count
    have h4 := hB.count
    rw [h1, h2]
    simp only [List.length_ofFn, List.length_map] at h3 ⊢
    omega

theorem allCommute_concat {A : Rows F (n + n)} {X Z : Fin m → Fin (n + n) → F}
    (hA : IsLogicalBasis A (List.ofFn X) (List.ofFn Z)) {B : Rows F (m + m)}
    (h1 : AllCommute A) (h2 : AllCommute B) : AllCommute (A ++ B.map (encode X Z)) := by
  have hp : ∀ i j, sform (X i) (Z j) = if i = j then 1 else 0 := by
    intro i j
    have := hA.pair i j (by simp) (by simp)
    simp only [List.getElem_ofFn, Fin.eta] at this
    rw [this]
    simp only [Fin.ext_iff]
  have hX : ∀ i, X i ∈ List.ofFn X := fun i => by rw [List.mem_ofFn]; exact ⟨i, rfl⟩
  have hZ : ∀ i, Z i ∈ List.ofFn Z := fun i => by rw [List.mem_ofFn]; exact ⟨i, rfl⟩
  have hs : ∀ p q, sform (encode X Z p) (encode X Z q) = sform p q :=
    sform_encode hp (fun i j => hA.xx _ (hX i) _ (hX j)) (fun i j => hA.zz _ (hZ i) _ (hZ j))
  have hAe : ∀ r ∈ A, ∀ q, sform r (encode X Z q) = 0 := by
    intro r hr q
    unfold encode
    rw [sform_sum_right]
    refine Finset.sum_eq_zero fun i _ => ?_
    rw [sform_add_right, sform_smul_right, sform_smul_right, hA.commX r hr _ (hX i),
      hA.commZ r hr _ (hZ i)]
    simp
  intro p hp' q hq'
  rcases List.mem_append.1 hp' with hp' | hp' <;> rcases List.mem_append.1 hq' with hq' | hq'
  · exact h1 p hp' q hq'
  · obtain ⟨q, _, rfl⟩ := List.mem_map.1 hq'
    exact hAe p hp' q
  · obtain ⟨p, _, rfl⟩ := List.mem_map.1 hp'
    rw [sform_comm, hAe q hq' p, neg_zero]
  · obtain ⟨p, hp, rfl⟩ := List.mem_map.1 hp'
    obtain ⟨q, hq, rfl⟩ := List.mem_map.1 hq'
    rw [hs]; exact h2 p hp q hq

end QLDPC
