import Verif.Lemmas.TransversalSearch
import Verif.Lemmas.SubsystemPair
import Verif.Props.Encoding

/-!
# Encoders of general codes

What is known about encoders of general subsystem codes whenever the calls succeed: Stim checks the commutation
relations of the operators it is given.
-/

namespace QLDPC

open Spec Props

variable {n : ℕ}

theorem length_commuteLoop (S rest done : Rows (ZMod 2) (n + n)) :
    (commuteLoop S done rest).length = done.length + rest.length := by
  induction rest generalizing done with
  | nil => rfl
  | cons d rest ih =>
    rw [commuteLoop, ih, List.length_append, List.length_cons, List.length_cons, List.length_nil]
    omega

theorem length_destabOps (S L G : Rows (ZMod 2) (n + n)) (hn : 0 < n) : (destabOps S L G).length = S.length := by
  unfold destabOps candidateDestabs
  rw [length_commuteLoop, List.length_nil, Nat.zero_add, List.length_map, List.length_map, List.length_map,
    length_firstNonzeroCols _ (by omega)]

theorem length_reduced (M : Rows (ZMod 2) (n + n)) : (dropZero (rowReduce M)).length = rank M := by
  rw [dropZero_rowReduce, List.length_map]; rfl

theorem rank_radical_le (M : Rows (ZMod 2) (n + n)) :
    rank (subsystemStabilizers M) ≤ rank M ∧ rank (subsystemStabilizers M) + rank M ≤ 2 * n := by
  constructor
  · rw [← finrank_rowSpan, ← finrank_rowSpan]
    exact Submodule.finrank_mono fun p hp => ((mem_subsystemStabilizers M p).1 hp).1
  · have h1 := finrank_kernel (M.map symplecticConjugate)
    rw [rank_conj] at h1
    have h2 : rowSpan (subsystemStabilizers M) ≤ kernel (M.map symplecticConjugate) := fun p hp =>
      mem_kernel_conj.2 ((mem_subsystemStabilizers M p).1 hp).2
    have h3 := Submodule.finrank_mono h2
    rw [finrank_rowSpan] at h3
    omega

/-- The tableau of any code for which Stim accepts the operators. -/
theorem QCode.frame {c : QCode (ZMod 2) n} {LX LZ : Rows (ZMod 2) (n + n)} (hops : c.getLogicalOps = some (LX ++ LZ))
    (hx : LX.length = c.dimension) (hz : LZ.length = c.dimension)
    (hd : c.isSub = true → c.dimension = subsystemDimension c.matrix)
    {t : Rows (ZMod 2) (n + n) × Rows (ZMod 2) (n + n)} (ht : c.encodingTableau = some t) :
    ∃ GX GZ D, t = (LX ++ GX ++ D, LZ ++ GZ ++ c.stabilizerOpsCanon) ∧ Frame c.stabilizerOpsCanon LX LZ GX GZ D ∧
      GX.length = c.gaugeDimension := by
  unfold QCode.encodingTableau at ht
  rw [hops, Option.bind_some, Option.bind_eq_some_iff] at ht
  obtain ⟨G, hG, ht⟩ := ht
  rw [stimTableau_iff] at ht
  obtain ⟨rfl, hT⟩ := ht
  unfold QLDPC.encodingTableau at hT ⊢
  simp only at hT ⊢
  have e1 : (LX ++ LZ).take c.dimension = LX := by rw [← hx]; simp
  have e2 : (LX ++ LZ).drop c.dimension = LZ := by rw [← hx]; simp
  rw [e1, e2] at hT ⊢
  have l1 := hT.lenX
  have l2 := hT.lenZ
  simp only [List.length_append, List.length_take, List.length_drop] at l1 l2
  have key : min c.gaugeDimension G.length = G.length - c.gaugeDimension ∧
      min c.gaugeDimension G.length = c.gaugeDimension := by
    rcases Nat.eq_zero_or_pos n with hn | hn
    · have hg : c.gaugeDimension = 0 := by
        unfold QCode.gaugeDimension
        split
        · unfold QLDPC.gaugeDimension
          rw [length_reduced]
          have := (rank_radical_le c.matrix).2
          have h3 := finrank_kernel (c.matrix.map symplecticConjugate)
          rw [rank_conj] at h3
          omega
        · rfl
      omega
    · have hD := length_destabOps c.stabilizerOpsCanon (LX ++ LZ) G hn
      unfold QCode.gaugeDimension at *
      unfold QCode.stabilizerOpsCanon at *
      unfold QCode.gaugeOps at hG
      cases hs : c.isSub with
      | false =>
        simp only [hs, Bool.false_eq_true, if_false, Option.some.injEq] at hG ⊢
        subst hG
        simp
      | true =>
        simp only [hs, if_true] at l1 l2 hD ⊢
        have hk := hd hs
        unfold subsystemDimension at hk
        unfold QLDPC.gaugeDimension at *
        obtain ⟨h1, h2⟩ := rank_radical_le c.matrix
        rw [length_reduced, length_subsystemStabilizers] at *
        omega
  refine ⟨G.take c.gaugeDimension, G.drop c.gaugeDimension, _, rfl, ⟨hT, hx.trans hz.symm, ?_⟩, ?_⟩
  · rw [List.length_take, List.length_drop]; exact key.1
  · rw [List.length_take]; exact key.2

/-- Logical operators of a code come in pairs. -/
theorem ofMatrix_logicals {M : Rows (ZMod 2) (n + n)} {b : Bool} {L : Rows (ZMod 2) (n + n)}
    (h : (QCode.ofMatrix M (some b)).getLogicalOps = some L) :
    ∃ LX LZ, L = LX ++ LZ ∧ LX.length = (QCode.ofMatrix M (some b)).dimension ∧
      LZ.length = (QCode.ofMatrix M (some b)).dimension := by
  unfold QCode.getLogicalOps QCode.ofMatrix at h
  simp only [Option.getD_some] at h
  rw [Option.map_eq_some_iff] at h
  obtain ⟨p, hp, rfl⟩ := h
  refine ⟨p.1, p.2, rfl, ?_⟩
  unfold QCode.dimension QCode.ofMatrix
  simp only [Option.getD_some]
  cases b with
  | true =>
    simp only [if_true] at hp ⊢
    obtain ⟨h1, h2, -⟩ := subsystemLogicals_pair (LX := p.1) (LZ := p.2) hp
    exact ⟨h1, h2⟩
  | false =>
    simp only [Bool.false_eq_true, if_false] at hp ⊢
    unfold stabLogicals at hp
    rw [Option.map_eq_some_iff] at hp
    obtain ⟨d, -, rfl⟩ := hp
    simp

theorem setLogicalOps_isSub {c c' : QCode (ZMod 2) n} {L : Rows (ZMod 2) (n + n)} (h : c.setLogicalOps L = .ok c') :
    c'.isSub = c.isSub := by
  unfold QCode.setLogicalOps at h
  simp only [if_true] at h
  split_ifs at h
  cases h
  rfl

/-- Deformation changes neither the number of gauge qubits nor the number of logical qubits. -/
theorem rank_radical_map {f : (Fin (n + n) → ZMod 2) →ₗ[ZMod 2] (Fin (n + n) → ZMod 2)} (hf : Function.Injective f)
    (hs : ∀ p q, sform (f p) (f q) = sform p q) (M : Rows (ZMod 2) (n + n)) :
    rank (M.map f) = rank M ∧ rank (subsystemStabilizers (M.map f)) = rank (subsystemStabilizers M) := by
  have hr : ∀ N : Rows (ZMod 2) (n + n), rank (N.map f) = rank N := by
    intro N
    rw [← finrank_rowSpan, ← finrank_rowSpan, rowSpan_map]
    exact (LinearEquiv.finrank_eq (Submodule.equivMapOfInjective f hf (rowSpan N))).symm
  refine ⟨hr M, ?_⟩
  rw [← hr (subsystemStabilizers M)]
  apply rank_eq_of_rowSpan_eq
  ext p
  rw [mem_subsystemStabilizers, rowSpan_map, rowSpan_map]
  constructor
  · rintro ⟨⟨q, hq, rfl⟩, h⟩
    refine ⟨q, (mem_subsystemStabilizers M q).2 ⟨hq, fun r hr => ?_⟩, rfl⟩
    rw [← hs]
    exact h _ (List.mem_map_of_mem hr)
  · rintro ⟨q, hq, rfl⟩
    obtain ⟨h1, h2⟩ := (mem_subsystemStabilizers M q).1 hq
    refine ⟨⟨q, h1, rfl⟩, fun r hr => ?_⟩
    obtain ⟨r, hr', rfl⟩ := List.mem_map.1 hr
    rw [hs]
    exact h2 r hr'

end QLDPC
