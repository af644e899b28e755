import Verif.Lemmas.LinAlg
import Mathlib.LinearAlgebra.FiniteDimensional.Lemmas
import Mathlib.LinearAlgebra.LinearIndependent.Lemmas

set_option linter.unusedSectionVars false

namespace QLDPC

variable {F : Type*} [Field F] [DecidableEq F] {n : ℕ}

/-- Number of nonzero rows of the reduced row echelon form. -/
def rank (M : Rows F n) : ℕ := (rrefPairs M).length

theorem find_pair {d : List (Fin n × (Fin n → F))} (h : IsRREF d) {q} (hq : q ∈ d) :
    d.find? (fun q' => q'.1 = q.1) = some q := by
  cases hf : d.find? (fun q' => q'.1 = q.1) with
  | none =>
    have := List.find?_eq_none.1 hf q hq
    simp at this
  | some q' =>
    have h1 : q'.1 = q.1 := by simpa using List.find?_some hf
    have h2 := List.mem_of_find?_eq_some hf
    rw [h.inj h2 hq h1]

theorem find_none {d : List (Fin n × (Fin n → F))} {c : Fin n} (hc : c ∉ d.map Prod.fst) :
    d.find? (fun q' => q'.1 = c) = none := by
  rw [List.find?_eq_none]
  intro q hq
  have : q.1 ≠ c := fun he => hc (List.mem_map.2 ⟨q, hq, he⟩)
  simpa using this

theorem kernelVec_self (d : List (Fin n × (Fin n → F))) (f : Fin n) : kernelVec d f f = 1 := by
  simp [kernelVec]

theorem kernelVec_pivot {d : List (Fin n × (Fin n → F))} (h : IsRREF d) {f : Fin n}
    (hf : f ∉ d.map Prod.fst) {q} (hq : q ∈ d) : kernelVec d f q.1 = - q.2 f := by
  have : q.1 ≠ f := fun he => hf (List.mem_map.2 ⟨q, hq, he⟩)
  simp [kernelVec, this, find_pair h hq]

theorem kernelVec_free {d : List (Fin n × (Fin n → F))} {f c : Fin n}
    (hne : c ≠ f) (hc : c ∉ d.map Prod.fst) : kernelVec d f c = 0 := by
  simp [kernelVec, hne, find_none hc]

/-- Splitting a dot product into pivot columns and the rest. -/
theorem dot_eq_pivots_add_free {d : List (Fin n × (Fin n → F))} (h : IsRREF d)
    (a x : Fin n → F) :
    dot a x = (d.map fun q => a q.1 * x q.1).sum +
      (((List.finRange n).filter (fun c => c ∉ d.map Prod.fst)).map fun c => a c * x c).sum := by
  have hsum : dot a x = ((List.finRange n).map fun c => a c * x c).sum := by
    simp [dot, Fin.sum_univ_def]
  rw [hsum]
  have hperm : (List.finRange n).Perm
      (d.map Prod.fst ++ (List.finRange n).filter (fun c => c ∉ d.map Prod.fst)) := by
    have h1 := List.filter_append_perm (fun c => decide (c ∈ d.map Prod.fst)) (List.finRange n)
    refine h1.symm.trans ?_
    have e2 : (List.finRange n).filter (fun x => !decide (x ∈ d.map Prod.fst)) =
        (List.finRange n).filter (fun c => c ∉ d.map Prod.fst) := by
      congr 1; ext c; simp
    rw [e2]
    apply List.Perm.append_right
    rw [List.perm_ext_iff_of_nodup]
    · intro c; simp
    · exact (List.nodup_finRange n).filter _
    · exact h.nodup_pivots.imp fun hlt => ne_of_lt hlt
  rw [(hperm.map _).sum_eq, List.map_append, List.sum_append, List.map_map]
  rfl

theorem mem_filter_free {d : List (Fin n × (Fin n → F))} {c : Fin n} :
    c ∈ (List.finRange n).filter (fun c => c ∉ d.map Prod.fst) ↔ c ∉ d.map Prod.fst := by
  simp

theorem nodup_free {d : List (Fin n × (Fin n → F))} :
    ((List.finRange n).filter (fun c => c ∉ d.map Prod.fst)).Nodup :=
  (List.nodup_finRange n).filter _

/-- Product of a vector with a kernel vector. -/
theorem dot_kernelVec {d : List (Fin n × (Fin n → F))} (h : IsRREF d) {f : Fin n}
    (hf : f ∉ d.map Prod.fst) (w : Fin n → F) :
    dot w (kernelVec d f) = w f - (d.map fun q => w q.1 * q.2 f).sum := by
  rw [dot_eq_pivots_add_free h]
  rw [sum_map_eq_single nodup_free (mem_filter_free.2 hf) (fun c => w c * kernelVec d f c)]
  · rw [kernelVec_self, mul_one]
    have : (d.map fun q => w q.1 * kernelVec d f q.1) =
        d.map (fun q => - (w q.1 * q.2 f)) := by
      apply List.map_congr_left
      intro q hq
      rw [kernelVec_pivot h hf hq, mul_neg]
    rw [this]
    have hneg : ∀ l : List (Fin n × (Fin n → F)),
        (l.map fun q => - (w q.1 * q.2 f)).sum = - (l.map fun q => w q.1 * q.2 f).sum := by
      intro l
      induction l with
      | nil => simp
      | cons b l ih => simp only [List.map_cons, List.sum_cons, ih]; ring
    rw [hneg]; ring
  · intro b hb hne
    rw [kernelVec_free hne (mem_filter_free.1 hb), mul_zero]

theorem combo_apply (d : List (Fin n × (Fin n → F))) (a : Fin n → F) (c : Fin n) :
    combo d a c = (d.map fun q => a q.1 * q.2 c).sum := by
  unfold combo
  induction d with
  | nil => simp
  | cons b d ih => simp [ih]

/-- Vectors orthogonal to all kernel vectors of a reduced form are in its row space. -/
theorem mem_rowSpan_of_orthogonal {d : List (Fin n × (Fin n → F))} (h : IsRREF d)
    {v : Fin n → F} (hv : ∀ f, f ∉ d.map Prod.fst → dot v (kernelVec d f) = 0) :
    v ∈ rowSpan (d.map Prod.snd) := by
  have : v = combo d v := by
    ext c
    by_cases hc : c ∈ d.map Prod.fst
    · obtain ⟨q, hq, rfl⟩ := List.mem_map.1 hc
      rw [h.combo_pivot v hq]
    · have := hv c hc
      rw [dot_kernelVec h hc, sub_eq_zero] at this
      rw [this, combo_apply]
  rw [this]; exact combo_mem d v

theorem kernelVec_mem {d : List (Fin n × (Fin n → F))} (h : IsRREF d) {f : Fin n}
    (hf : f ∉ d.map Prod.fst) : kernelVec d f ∈ kernel (d.map Prod.snd) := by
  intro r hr
  obtain ⟨q, hq, rfl⟩ := List.mem_map.1 hr
  rw [dot_kernelVec h hf]
  have hm := h.eq_combo (subset_rowSpan (List.mem_map.2 ⟨q, hq, rfl⟩) :
    q.2 ∈ rowSpan (d.map Prod.snd))
  have := congrFun hm f
  rw [combo_apply] at this
  rw [← this, sub_self]

theorem kernel_rref (M : Rows F n) : kernel ((rrefPairs M).map Prod.snd) = kernel M :=
  kernel_eq_of_rowSpan_eq (rowSpan_rrefPairs M)

theorem kernelBasis_mem (M : Rows F n) : ∀ v ∈ kernelBasis M, v ∈ kernel M := by
  intro v hv
  obtain ⟨f, hf, rfl⟩ := List.mem_map.1 hv
  rw [← kernel_rref]
  exact kernelVec_mem (rrefPairs_isRREF M) (mem_filter_free.1 hf)

/-- An element of the kernel is the combination of kernel vectors with its free entries. -/
theorem mem_span_kernelBasis (M : Rows F n) {x} (hx : x ∈ kernel M) :
    x ∈ rowSpan (kernelBasis M) := by
  have hd := rrefPairs_isRREF M
  set d := rrefPairs M with hdd
  set free := (List.finRange n).filter (fun c => c ∉ d.map Prod.fst) with hfree
  have key : x = (free.map fun f => x f • kernelVec d f).sum := by
    have happ : ∀ (l : List (Fin n)) (c : Fin n),
        ((l.map fun f => x f • kernelVec d f).sum) c = (l.map fun f => x f * kernelVec d f c).sum := by
      intro l c
      induction l with
      | nil => simp
      | cons b l ih => simp [ih]
    ext c
    rw [happ]
    by_cases hc : c ∈ d.map Prod.fst
    · obtain ⟨q, hq, rfl⟩ := List.mem_map.1 hc
      have hq0 : dot q.2 x = 0 := by
        have : x ∈ kernel (d.map Prod.snd) := by rw [hdd, kernel_rref]; exact hx
        exact this q.2 (List.mem_map.2 ⟨q, hq, rfl⟩)
      rw [dot_eq_pivots_add_free hd] at hq0
      rw [sum_map_eq_single hd.nodup hq (fun q' => q.2 q'.1 * x q'.1)] at hq0
      · rw [hd.one q hq, one_mul] at hq0
        have : (free.map fun f => x f * kernelVec d f q.1) =
            free.map (fun f => - (q.2 f * x f)) := by
          apply List.map_congr_left
          intro f hf
          rw [kernelVec_pivot hd (mem_filter_free.1 hf) hq]; ring
        rw [this]
        have hneg : ∀ l : List (Fin n),
            (l.map fun f => - (q.2 f * x f)).sum = - (l.map fun f => q.2 f * x f).sum := by
          intro l
          induction l with
          | nil => simp
          | cons b l ih => simp only [List.map_cons, List.sum_cons, ih]; ring
        rw [hneg]
        linear_combination hq0
      · intro b hb hne
        rw [hd.pivot_eq q hq b hb, if_neg (Ne.symm hne), zero_mul]
    · rw [sum_map_eq_single nodup_free (mem_filter_free.2 hc) (fun f => x f * kernelVec d f c)]
      · rw [kernelVec_self, mul_one]
      · intro b hb hne
        rw [kernelVec_free (Ne.symm hne) hc, mul_zero]
  rw [key]
  apply list_sum_mem
  intro v hv
  obtain ⟨f, hf, rfl⟩ := List.mem_map.1 hv
  exact Submodule.smul_mem _ _ (subset_rowSpan (List.mem_map.2 ⟨f, hf, rfl⟩))

theorem rowSpan_kernelBasis (M : Rows F n) : rowSpan (kernelBasis M) = kernel M :=
  le_antisymm (rowSpan_le.2 (kernelBasis_mem M)) fun _ hx => mem_span_kernelBasis M hx

theorem rowSpan_nullSpace (M : Rows F n) : rowSpan (nullSpace M) = kernel M := by
  rw [nullSpace, rowSpan_rrefPairs, rowSpan_kernelBasis]

/-- The row space is the orthogonal complement of the kernel. -/
theorem mem_rowSpan_iff (M : Rows F n) (v : Fin n → F) :
    v ∈ rowSpan M ↔ ∀ x ∈ kernel M, dot v x = 0 := by
  constructor
  · intro hv x hx; exact dot_eq_zero_of_mem_rowSpan hv hx
  · intro h
    rw [← rowSpan_rrefPairs]
    apply mem_rowSpan_of_orthogonal (rrefPairs_isRREF M)
    intro f hf
    apply h
    rw [← kernel_rref]
    exact kernelVec_mem (rrefPairs_isRREF M) hf

theorem rowSpan_eq_iff_kernel_eq (M N : Rows F n) :
    rowSpan M = rowSpan N ↔ kernel M = kernel N := by
  constructor
  · exact kernel_eq_of_rowSpan_eq
  · intro h; ext v; rw [mem_rowSpan_iff, mem_rowSpan_iff, h]

/-- The kernel of a basis of the kernel is the row space. -/
theorem kernel_nullSpace (M : Rows F n) : kernel (nullSpace M) = rowSpan M := by
  ext v
  rw [mem_rowSpan_iff]
  constructor
  · intro hv x hx
    rw [← rowSpan_nullSpace] at hx
    rw [dot_comm]; exact dot_eq_zero_of_mem_rowSpan hx hv
  · intro h r hr
    rw [dot_comm]
    exact h r (by rw [← rowSpan_nullSpace]; exact subset_rowSpan hr)

theorem linearIndependent_of_isRREF {d : List (Fin n × (Fin n → F))} (h : IsRREF d) :
    LinearIndependent F (fun i : Fin d.length => (d.get i).2) := by
  rw [Fintype.linearIndependent_iff]
  intro g hg i
  have := congrFun hg (d.get i).1
  simp only [Finset.sum_apply, Pi.smul_apply, smul_eq_mul, Pi.zero_apply] at this
  rw [Finset.sum_eq_single i] at this
  · rw [h.one _ (List.get_mem _ _), mul_one] at this; exact this
  · intro j _ hne
    rw [h.pivot_eq _ (List.get_mem _ _) _ (List.get_mem _ _), if_neg, mul_zero]
    intro he
    exact hne (h.nodup.injective_get he)
  · simp

theorem rowSpan_eq_span_range (d : List (Fin n × (Fin n → F))) :
    rowSpan (d.map Prod.snd) =
      Submodule.span F (Set.range (fun i : Fin d.length => (d.get i).2)) := by
  unfold rowSpan
  congr 1
  ext v
  simp only [Set.mem_setOf_eq, List.mem_map, Set.mem_range]
  constructor
  · rintro ⟨q, hq, rfl⟩
    obtain ⟨i, hi⟩ := List.get_of_mem hq
    exact ⟨i, by rw [hi]⟩
  · rintro ⟨i, rfl⟩
    exact ⟨_, List.get_mem _ _, rfl⟩

theorem finrank_rowSpan_rref {d : List (Fin n × (Fin n → F))} (h : IsRREF d) :
    Module.finrank F (rowSpan (d.map Prod.snd)) = d.length := by
  rw [rowSpan_eq_span_range, finrank_span_eq_card (linearIndependent_of_isRREF h)]
  simp

/-- The number of nonzero rows of the reduced form is the dimension of the row space. -/
theorem finrank_rowSpan (M : Rows F n) : Module.finrank F (rowSpan M) = rank M := by
  rw [← rowSpan_rrefPairs, finrank_rowSpan_rref (rrefPairs_isRREF M)]; rfl

theorem rank_eq_of_rowSpan_eq {M N : Rows F n} (h : rowSpan M = rowSpan N) : rank M = rank N := by
  rw [← finrank_rowSpan, ← finrank_rowSpan, h]

theorem rrefPairs_eq_of_rowSpan_eq {M N : Rows F n} (h : rowSpan M = rowSpan N) :
    rrefPairs M = rrefPairs N :=
  rref_unique (rrefPairs_isRREF M) (rrefPairs_isRREF N)
    (by rw [rowSpan_rrefPairs, rowSpan_rrefPairs, h])

theorem length_kernelBasis (M : Rows F n) : (kernelBasis M).length + rank M = n := by
  have hd := rrefPairs_isRREF M
  unfold kernelBasis rank
  rw [List.length_map]
  have h1 := List.filter_append_perm (fun c => decide (c ∈ pivots M)) (List.finRange n)
  have h2 := h1.length_eq
  rw [List.length_append, List.length_finRange] at h2
  have e2 : (List.finRange n).filter (fun x => !decide (x ∈ pivots M)) =
      (List.finRange n).filter (fun c => c ∉ pivots M) := by
    congr 1; ext c; simp
  rw [e2] at h2
  have h3 : ((List.finRange n).filter (fun c => decide (c ∈ pivots M))).length =
      (rrefPairs M).length := by
    have : ((List.finRange n).filter (fun c => decide (c ∈ pivots M))).Perm (pivots M) := by
      rw [List.perm_ext_iff_of_nodup]
      · intro c; simp
      · exact (List.nodup_finRange n).filter _
      · exact hd.nodup_pivots.imp fun hlt => ne_of_lt hlt
    rw [this.length_eq, pivots, List.length_map]
  omega

theorem linearIndependent_kernelBasis (M : Rows F n) :
    LinearIndependent F (fun i : Fin (kernelBasis M).length => (kernelBasis M).get i) := by
  have hd := rrefPairs_isRREF M
  rw [Fintype.linearIndependent_iff]
  intro g hg i
  set free := (List.finRange n).filter (fun c => c ∉ pivots M) with hfree
  have hlen : (kernelBasis M).length = free.length := by simp [kernelBasis, hfree]
  have hget : ∀ j : Fin (kernelBasis M).length,
      (kernelBasis M).get j = kernelVec (rrefPairs M) (free.get (j.cast hlen)) := by
    intro j; exact List.getElem_map (kernelVec (rrefPairs M))
  have := congrFun hg (free.get (i.cast hlen))
  simp only [Finset.sum_apply, Pi.smul_apply, smul_eq_mul, Pi.zero_apply] at this
  rw [Finset.sum_eq_single i] at this
  · rw [hget, kernelVec_self, mul_one] at this; exact this
  · intro j _ hne
    rw [hget, kernelVec_free, mul_zero]
    · intro he
      apply hne
      have hn : free.Nodup := (List.nodup_finRange n).filter _
      have := hn.injective_get he
      exact (Fin.cast_injective hlen this).symm
    · have := List.get_mem free (i.cast hlen)
      exact mem_filter_free.1 this
  · simp

/-- Rank-nullity for the modelled `null_space`. -/
theorem finrank_kernel (M : Rows F n) : Module.finrank F (kernel M) + rank M = n := by
  rw [← rowSpan_kernelBasis]
  have : rowSpan (kernelBasis M) =
      Submodule.span F (Set.range (fun i => (kernelBasis M).get i)) := by
    unfold rowSpan; congr 1; ext v
    simp only [Set.mem_setOf_eq, Set.mem_range]
    exact List.mem_iff_get
  rw [this, finrank_span_eq_card (linearIndependent_kernelBasis M)]
  simpa using length_kernelBasis M

theorem length_nullSpace (M : Rows F n) : (nullSpace M).length + rank M = n := by
  have h1 : (nullSpace M).length = rank (kernelBasis M) := by simp [nullSpace, rank]
  rw [h1, ← finrank_rowSpan, rowSpan_kernelBasis]
  exact finrank_kernel M

theorem linearIndependent_nullSpace (M : Rows F n) :
    LinearIndependent F (fun i : Fin (nullSpace M).length => (nullSpace M).get i) := by
  have h := linearIndependent_of_isRREF (rrefPairs_isRREF (kernelBasis M))
  have hlen : (nullSpace M).length = (rrefPairs (kernelBasis M)).length := by simp [nullSpace]
  have : (fun i : Fin (nullSpace M).length => (nullSpace M).get i) =
      (fun i : Fin (rrefPairs (kernelBasis M)).length => ((rrefPairs (kernelBasis M)).get i).2) ∘
        Fin.cast hlen := by
    funext i; exact List.getElem_map Prod.snd
  rw [this]
  exact h.comp _ (Fin.cast_injective hlen)

theorem rank_le (M : Rows F n) : rank M ≤ n := by have := length_kernelBasis M; omega

theorem rank_le_length (M : Rows F n) : rank M ≤ M.length := by
  have := (rrefState_inv M).len
  unfold rank rrefPairs; omega

/-- Linear combination of the rows of a list with a coefficient list. -/
theorem mem_rowSpan_iff_exists (M : Rows F n) (v : Fin n → F) :
    v ∈ rowSpan M ↔ ∃ c : Fin M.length → F, v = ∑ i, c i • M.get i := by
  have : rowSpan M = Submodule.span F (Set.range (fun i => M.get i)) := by
    unfold rowSpan; congr 1; ext v
    simp only [Set.mem_setOf_eq, Set.mem_range]
    exact List.mem_iff_get
  rw [this, Submodule.mem_span_range_iff_exists_fun]
  constructor
  · rintro ⟨c, hc⟩; exact ⟨c, hc.symm⟩
  · rintro ⟨c, hc⟩; exact ⟨c, hc.symm⟩

end QLDPC
