import Verif.Model.WeightBuffers
import Verif.Props.Distance

/-!
# Property C112: weight kernels with buffers, and the choice between kernels
-/

namespace QLDPC.Props

open QLDPC

variable {N : ℕ}

/-- The number of ones of a word. -/
def numOnes (x : BitVec 64) : ℕ := ((Finset.range 64).filter fun i => x.getLsbD i).card

/-- The number of pairs of adjacent bits that are not both zero. -/
def numPairs (x : BitVec 64) : ℕ :=
  ((Finset.range 32).filter fun i => x.getLsbD (2 * i) || x.getLsbD (2 * i + 1)).card

/-- The arrays given to a call are in use and different from one another. -/
structure Separate (h : WordHeap N) (arr : ℕ) (bufs : List ℕ) (out : Option ℕ) : Prop where
  arr_used : arr < h.next
  bufs_used : ∀ b ∈ bufs, b < h.next
  out_used : ∀ o, out = some o → o < h.next
  arr_bufs : arr ∉ bufs
  arr_out : out ≠ some arr
  bufs_out : ∀ b ∈ bufs, out ≠ some b

/-- What a call of a weight function is expected to do: the result holds the weights of the words of `arr`; it is the
given array, or a new one; of the arrays in use, only the buffers and the given array change. -/
def Computes (weight : BitVec 64 → ℕ) (h : WordHeap N) (arr : ℕ) (bufs : List ℕ) (out : Option ℕ) (h' : WordHeap N) (o : ℕ) :
    Prop :=
  (∀ i, (h'.cell o i).toNat = weight (h.cell arr i)) ∧ (∀ a, out = some a → o = a) ∧ (out = none → h.next ≤ o) ∧
    h.next ≤ h'.next ∧ o < h'.next ∧ ∀ a < h.next, a ∉ bufs → out ≠ some a → h'.cell a = h.cell a

/-! ## Helper lemmas -/

theorem write_cell (h : WordHeap N) (a b : ℕ) (f : Fin N → BitVec 64) :
    (h.write a f).cell b = if b = a then f else h.cell b := by
  simp [WordHeap.write, Function.update_apply]

theorem write_next (h : WordHeap N) (a : ℕ) (f : Fin N → BitVec 64) : (h.write a f).next = h.next := rfl

/-- What a function with `out=` does. -/
theorem ufuncOut_spec (h : WordHeap N) (out : Option ℕ) (f : Fin N → BitVec 64) (hu : ∀ o, out = some o → o < h.next) :
    ∃ h' o, h.ufuncOut out f = (h', o) ∧ h'.cell o = f ∧ (∀ a, a ≠ o → h'.cell a = h.cell a) ∧ (∀ a, out = some a → o = a) ∧
      (out = none → o = h.next) ∧ h.next ≤ h'.next ∧ o < h'.next := by
  cases out with
  | some a =>
    refine ⟨_, _, rfl, by rw [write_cell, if_pos rfl], fun b hb => by rw [write_cell, if_neg hb], ?_, by simp, le_rfl, hu a rfl⟩
    intro b hb; exact Option.some.inj hb
  | none =>
    refine ⟨_, _, rfl, by simp, fun b hb => by simp [Function.update_apply, hb], by simp, by simp, by simp, by simp⟩

theorem sumFieldsBuffered_spec (h : WordHeap N) (buf : Option ℕ) (o : ℕ) (ho : o < h.next) (hb : ∀ b, buf = some b → b < h.next)
    (hne : buf ≠ some o) :
    ∃ h', h.sumFieldsBuffered buf o = (h', o) ∧ (∀ i, h'.cell o i = sumFields (h.cell o i)) ∧ h.next ≤ h'.next ∧
      ∀ a < h.next, a ≠ o → buf ≠ some a → h'.cell a = h.cell a := by
  obtain ⟨h1, b, e1, c1, k1, s1, n1, l1, -⟩ := ufuncOut_spec h buf (fun i => h.cell o i >>> 2) hb
  have hbo : b ≠ o := by
    cases buf with
    | none => have := n1 rfl; omega
    | some b' => have := s1 b' rfl; subst this; exact fun e => hne (by rw [e])
  have hob : o ≠ b := hbo.symm
  unfold WordHeap.sumFieldsBuffered
  rw [e1]
  refine ⟨_, rfl, fun i => ?_, ?_, fun a ha hao hab => ?_⟩
  · simp [write_cell, WordHeap.ufuncOut, hbo, hob, c1, k1 o hob, sumFields]
  · simpa [write_next, WordHeap.ufuncOut] using l1
  · have hab' : a ≠ b := by
      cases buf with
      | none => have := n1 rfl; omega
      | some b' => have := s1 b' rfl; subst this; exact fun e => hab (by rw [e])
    simp [write_cell, WordHeap.ufuncOut, hao, hab', k1 a hab']

/-- Single words: a function without a buffer. -/
theorem ufunc_computes {weight : BitVec 64 → ℕ} {kernel : BitVec 64 → BitVec 64} (hk : ∀ x, (kernel x).toNat = weight x) (w : ℕ)
    (h : WordHeap N) (arr : ℕ) (out : Option ℕ) (hs : Separate h arr [] out) :
    ∃ h' o, (WeightFn.ufunc kernel w).run h arr none out = (h', o) ∧ Computes weight h arr [] out h' o := by
  obtain ⟨h1, o, e1, c1, k1, s1, n1, l1, u1⟩ := ufuncOut_spec h out (fun i => kernel (h.cell arr i)) hs.out_used
  refine ⟨h1, o, e1, fun i => by rw [c1, hk], s1, fun e => (n1 e).ge, l1, u1, fun a ha _ hao => k1 a ?_⟩
  cases out with
  | none => have := n1 rfl; omega
  | some o' => have := s1 o' rfl; subst this; exact fun e => hao (by rw [e])

theorem tail_computes {weight : BitVec 64 → ℕ} {h h1 : WordHeap N} {arr o : ℕ} {buf out : Option ℕ}
    (hs : Separate h arr buf.toList out) (hw : ∀ i, (sumFields (h1.cell o i)).toNat = weight (h.cell arr i))
    (k1 : ∀ a, a ≠ o → h1.cell a = h.cell a) (s1 : ∀ a, out = some a → o = a) (n1 : out = none → o = h.next)
    (l1 : h.next ≤ h1.next) (u1 : o < h1.next) :
    ∃ h' o', h1.sumFieldsBuffered buf o = (h', o') ∧ Computes weight h arr buf.toList out h' o' := by
  have hb : ∀ b, buf = some b → b < h.next := fun b e => hs.bufs_used b (by simp [e])
  have hne : buf ≠ some o := by
    intro e
    cases out with
    | none => have := n1 rfl; have := hb o e; omega
    | some o' => have := s1 o' rfl; subst this; exact hs.bufs_out o (by simp [e]) rfl
  obtain ⟨h2, e2, c2, l2, k2⟩ := sumFieldsBuffered_spec h1 buf o u1 (fun b e => (hb b e).trans_le l1) hne
  refine ⟨h2, o, e2, fun i => by rw [c2, hw], s1, fun e => (n1 e).ge, l1.trans l2, u1.trans_le l2, fun a ha hab hao => ?_⟩
  have hao' : a ≠ o := by
    cases out with
    | none => have := n1 rfl; omega
    | some o' => have := s1 o' rfl; subst this; exact fun e => hao (by rw [e])
  rw [k2 a (ha.trans_le l1) hao' (fun e => hab (by simp [e])), k1 a hao']

theorem hammingBuffered_computes (h : WordHeap N) (arr : ℕ) (buf out : Option ℕ) (hs : Separate h arr buf.toList out) :
    ∃ h' o, h.hammingBuffered arr buf out = (h', o) ∧ Computes numOnes h arr buf.toList out h' o := by
  obtain ⟨h1, o, e1, c1, k1, s1, n1, l1, u1⟩ := ufuncOut_spec h out (fun i => h.cell arr i >>> 1) hs.out_used
  have hao : arr ≠ o := by
    have := hs.arr_used
    cases out with
    | none => have := n1 rfl; omega
    | some o' => have := s1 o' rfl; subst this; exact fun e => hs.arr_out (by rw [e])
  unfold WordHeap.hammingBuffered
  rw [e1]
  refine tail_computes (h := h) (o := o) hs (fun i => ?_) (fun a ha => ?_) s1 n1 l1 u1
  · have := C12_hamming (h.cell arr i)
    simp only [write_cell, if_true, hao, if_false, c1, k1 arr hao] at *
    exact this
  · simp [write_cell, ha, k1 a ha]

theorem symplecticBuffered_computes (h : WordHeap N) (arr : ℕ) (buf out : Option ℕ) (hs : Separate h arr buf.toList out) :
    ∃ h' o, h.symplecticBuffered arr buf out = (h', o) ∧ Computes numPairs h arr buf.toList out h' o := by
  obtain ⟨h1, o, e1, c1, k1, s1, n1, l1, u1⟩ := ufuncOut_spec h out (fun i => h.cell arr i >>> 1) hs.out_used
  have hao : arr ≠ o := by
    have := hs.arr_used
    cases out with
    | none => have := n1 rfl; omega
    | some o' => have := s1 o' rfl; subst this; exact fun e => hs.arr_out (by rw [e])
  unfold WordHeap.symplecticBuffered
  rw [e1]
  refine tail_computes (h := h) (o := o) hs (fun i => ?_) (fun a ha => ?_) s1 n1 l1 u1
  · have := C12_symplectic (h.cell arr i)
    simp only [write_cell, if_true, hao, if_false, c1, k1 arr hao] at *
    exact this
  · simp [write_cell, ha, k1 a ha]

theorem symplecticCounted_computes {count : BitVec 64 → BitVec 64} (hc : ∀ x, (count x).toNat = numOnes x) (h : WordHeap N)
    (arr : ℕ) (buf out : Option ℕ) (hs : Separate h arr buf.toList out) :
    ∃ h' o, h.symplecticCounted count arr buf out = (h', o) ∧ Computes numPairs h arr buf.toList out h' o := by
  have hb : ∀ b, buf = some b → b < h.next := fun b e => hs.bufs_used b (by simp [e])
  obtain ⟨h1, b, e1, c1, k1, s1, n1, l1, u1⟩ := ufuncOut_spec h buf (fun i => h.cell arr i >>> 1) hb
  have hba : ∀ a < h.next, buf ≠ some a → a ≠ b := by
    intro a ha hab
    cases buf with
    | none => have := n1 rfl; omega
    | some b' => have := s1 b' rfl; subst this; exact fun e => hab (by rw [e])
  have harr : arr ≠ b := hba arr hs.arr_used (fun e => hs.arr_bufs (by simp [e]))
  unfold WordHeap.symplecticCounted
  rw [e1]
  simp only
  set h2 := (h1.write b fun i => h1.cell b i ||| h1.cell arr i) with hh2
  set h3 := (h2.write b fun i => h2.cell b i &&& mask55) with hh3
  have hn : h3.next = h1.next := rfl
  obtain ⟨h4, o, e4, c4, k4, s4, n4, l4, u4⟩ := ufuncOut_spec h3 out (fun i => count (h3.cell b i))
    (fun o e => (hs.out_used o e).trans_le l1)
  refine ⟨h4, o, e4, fun i => ?_, s4, fun e => by rw [n4 e, hn]; exact l1, (l1.trans hn.ge).trans l4, u4, fun a ha hab hao => ?_⟩
  · rw [c4, hc]
    have h5 : h3.cell b i = ((h.cell arr i) >>> 1 ||| h.cell arr i) &&& mask55 := by
      simp [hh3, hh2, write_cell, harr, c1, k1 arr harr]
    rw [h5]
    show numOnes _ = numPairs _
    rw [numPairs, ← C12_symplectic, C12_symplectic_eq_hamming, C12_hamming]
    rfl
  · have hab' : a ≠ b := hba a ha (fun e => hab (by simp [e]))
    have hao' : a ≠ o := by
      cases out with
      | none => have := n4 rfl; rw [hn] at this; omega
      | some o' => have := s4 o' rfl; subst this; exact fun e => hao (by rw [e])
    rw [k4 a hao', hh3, write_cell, if_neg hab', hh2, write_cell, if_neg hab', k1 a hab']

theorem callWeight_computes {weight : BitVec 64 → ℕ} {fn : WeightFn N} {nbuf : ℕ} (hn : nbuf = 0 ∨ nbuf = 1 ∧ fn.takesBuf = true)
    (h : WordHeap N) (arr : ℕ) (bufs : List ℕ) (out : Option ℕ)
    (hrun : ∀ buf : Option ℕ, (buf = none ∨ nbuf = 1) → Separate h arr buf.toList out →
      ∃ h' o, fn.run h arr buf out = (h', o) ∧ Computes weight h arr buf.toList out h' o)
    (hl : bufs = [] ∨ bufs.length = nbuf) (hs : Separate h arr bufs out) :
    ∃ h' o, callWeight fn h arr bufs out = some (h', o, if out.isSome then 64 else fn.freshWidth) ∧
      Computes weight h arr bufs out h' o := by
  match bufs, hl, hs with
  | [], _, hs =>
    obtain ⟨h', o, e, hc⟩ := hrun none (.inl rfl) hs
    exact ⟨h', o, by simp [callWeight, e], hc⟩
  | [b], hl, hs =>
    have h1 : nbuf = 1 := by simpa [eq_comm] using hl
    have ht : fn.takesBuf = true := by rcases hn with h0 | h0; · omega
                                       · exact h0.2
    obtain ⟨h', o, e, hc⟩ := hrun (some b) (.inr h1) hs
    exact ⟨h', o, by simp [callWeight, e, ht], hc⟩
  | _ :: _ :: _, hl, hs =>
    simp at hl
    omega

/-! ## C112 -/

/-- **C112**, Hamming weights.  Whichever of the three functions is chosen, a call with the stated number of buffers, or
with none, returns the numbers of ones of all words; it changes no array in use but the buffers and the array for the
result, whatever they held before.  The result has 8-bit integers precisely if `np.bitwise_count` is used without an array
for the result. -/
theorem C112_hamming {count : BitVec 64 → BitVec 64} (hc : ∀ x, (count x).toNat = numOnes x) (useNumba hasCount : Bool)
    (h : WordHeap N) (arr : ℕ) (bufs : List ℕ) (out : Option ℕ)
    (hl : bufs = [] ∨ bufs.length = (hammingWeightFn (N := N) count useNumba hasCount).2) (hs : Separate h arr bufs out) :
    ∃ h' o, callWeight (hammingWeightFn count useNumba hasCount).1 h arr bufs out =
        some (h', o, if out = none ∧ useNumba = false ∧ hasCount = true then 8 else 64) ∧
      Computes numOnes h arr bufs out h' o := by
  have key : ∀ (fn : WeightFn N) (nbuf : ℕ), (fn, nbuf) = hammingWeightFn count useNumba hasCount →
      (nbuf = 0 ∨ nbuf = 1 ∧ fn.takesBuf = true) ∧ (fn.freshWidth = if useNumba = false ∧ hasCount = true then 8 else 64) ∧
      ∀ buf : Option ℕ, (buf = none ∨ nbuf = 1) → Separate h arr buf.toList out →
        ∃ h' o, fn.run h arr buf out = (h', o) ∧ Computes numOnes h arr buf.toList out h' o := by
    intro fn nbuf e
    unfold hammingWeightFn at e
    cases useNumba
    · cases hasCount
      · cases e
        exact ⟨.inr ⟨rfl, rfl⟩, rfl, fun buf _ hs => hammingBuffered_computes h arr buf out hs⟩
      · cases e
        refine ⟨.inl rfl, rfl, fun buf hb hs => ?_⟩
        obtain rfl : buf = none := by simpa using hb
        exact ufunc_computes hc 8 h arr out hs
    · cases e
      refine ⟨.inl rfl, rfl, fun buf hb hs => ?_⟩
      obtain rfl : buf = none := by simpa using hb
      exact ufunc_computes C12_hamming 64 h arr out hs
  obtain ⟨k1, k2, k3⟩ := key (hammingWeightFn count useNumba hasCount).1 (hammingWeightFn count useNumba hasCount).2 rfl
  obtain ⟨h', o, e, hcomp⟩ := callWeight_computes k1 h arr bufs out k3 hl hs
  refine ⟨h', o, ?_, hcomp⟩
  rw [e, k2]
  cases out <;> simp

/-- **C112**, symplectic weights: the same for the numbers of pairs of bits that are not both zero. -/
theorem C112_symplectic {count : BitVec 64 → BitVec 64} (hc : ∀ x, (count x).toNat = numOnes x) (useNumba hasCount : Bool)
    (h : WordHeap N) (arr : ℕ) (bufs : List ℕ) (out : Option ℕ)
    (hl : bufs = [] ∨ bufs.length = (symplecticWeightFn (N := N) count useNumba hasCount).2) (hs : Separate h arr bufs out) :
    ∃ h' o, callWeight (symplecticWeightFn count useNumba hasCount).1 h arr bufs out =
        some (h', o, if out = none ∧ useNumba = false ∧ hasCount = true then 8 else 64) ∧
      Computes numPairs h arr bufs out h' o := by
  have key : ∀ (fn : WeightFn N) (nbuf : ℕ), (fn, nbuf) = symplecticWeightFn count useNumba hasCount →
      (nbuf = 0 ∨ nbuf = 1 ∧ fn.takesBuf = true) ∧ (fn.freshWidth = if useNumba = false ∧ hasCount = true then 8 else 64) ∧
      ∀ buf : Option ℕ, (buf = none ∨ nbuf = 1) → Separate h arr buf.toList out →
        ∃ h' o, fn.run h arr buf out = (h', o) ∧ Computes numPairs h arr buf.toList out h' o := by
    intro fn nbuf e
    unfold symplecticWeightFn at e
    cases useNumba
    · cases hasCount
      · cases e
        exact ⟨.inr ⟨rfl, rfl⟩, rfl, fun buf _ hs => symplecticBuffered_computes h arr buf out hs⟩
      · cases e
        exact ⟨.inr ⟨rfl, rfl⟩, rfl, fun buf _ hs => symplecticCounted_computes hc h arr buf out hs⟩
    · cases e
      refine ⟨.inl rfl, rfl, fun buf hb hs => ?_⟩
      obtain rfl : buf = none := by simpa using hb
      exact ufunc_computes C12_symplectic 64 h arr out hs
  obtain ⟨k1, k2, k3⟩ := key (symplecticWeightFn count useNumba hasCount).1 (symplecticWeightFn count useNumba hasCount).2 rfl
  obtain ⟨h', o, e, hcomp⟩ := callWeight_computes k1 h arr bufs out k3 hl hs
  refine ⟨h', o, ?_, hcomp⟩
  rw [e, k2]
  cases out <;> simp

/-- The words in the array after each of the operators. -/
def partialSums (a : Fin N → BitVec 64) : List (Fin N → BitVec 64) → List (Fin N → BitVec 64)
  | [] => []
  | op :: ops => (fun i => a i ^^^ op i) :: partialSums (fun i => a i ^^^ op i) ops

theorem searchWeights_spec {weight : BitVec 64 → ℕ} {fn : WeightFn N} {arr : ℕ} {bufs : List ℕ} {out : ℕ}
    (rowsum : (Fin N → BitVec 64) → Fin N → BitVec 64)
    (hcall : ∀ h : WordHeap N, Separate h arr bufs (some out) →
      ∃ h' o w, callWeight fn h arr bufs (some out) = some (h', o, w) ∧ Computes weight h arr bufs (some out) h' o)
    (ops : List (Fin N → BitVec 64)) (h : WordHeap N) (hs : Separate h arr bufs (some out)) :
    ∃ ws, searchWeights fn arr bufs out rowsum ops h = some ws ∧
      ws.map (fun w i => (w i).toNat) = (partialSums (h.cell arr) ops).map fun a i => weight (a i) := by
  induction ops generalizing h with
  | nil => exact ⟨[], rfl, rfl⟩
  | cons op ops ih =>
    have hs1 : Separate (h.write arr fun i => h.cell arr i ^^^ op i) arr bufs (some out) :=
      ⟨hs.arr_used, hs.bufs_used, hs.out_used, hs.arr_bufs, hs.arr_out, hs.bufs_out⟩
    obtain ⟨h', o, w, e, c1, c2, -, c4, -, c6⟩ := hcall _ hs1
    obtain rfl := c2 out rfl
    have hne : arr ≠ o := fun e => hs.arr_out (by rw [e])
    have hs2 : Separate (h'.write o (rowsum (h'.cell o))) arr bufs (some o) :=
      ⟨hs.arr_used.trans_le c4, fun b hb => (hs.bufs_used b hb).trans_le c4, fun o e => (hs.out_used o e).trans_le c4,
        hs.arr_bufs, hs.arr_out, hs.bufs_out⟩
    obtain ⟨ws, e2, h2⟩ := ih _ hs2
    have harr : (h'.write o (rowsum (h'.cell o))).cell arr = fun i => h.cell arr i ^^^ op i := by
      rw [write_cell, if_neg hne, c6 arr hs.arr_used hs.arr_bufs hs.arr_out, write_cell, if_pos rfl]
    refine ⟨h'.cell o :: ws, ?_, ?_⟩
    · unfold searchWeights
      rw [e]
      simp only [e2, Option.map_some]
    · rw [List.map_cons, h2, harr]
      refine congrArg₂ List.cons (funext fun i => ?_) rfl
      rw [c1, write_cell, if_pos rfl]

/-- **C112**, the search: whichever function is chosen and whatever the buffers hold, the weights computed after each of
the operators are those of the words with these operators added; the destructive sums of the weights do no harm. -/
theorem C112_search {count : BitVec 64 → BitVec 64} (hc : ∀ x, (count x).toNat = numOnes x) (useNumba hasCount : Bool)
    (h : WordHeap N) (arr : ℕ) (bufs : List ℕ) (out : ℕ) (rowsum : (Fin N → BitVec 64) → Fin N → BitVec 64)
    (ops : List (Fin N → BitVec 64)) (hs : Separate h arr bufs (some out)) :
    (bufs.length = (hammingWeightFn (N := N) count useNumba hasCount).2 →
      ∃ ws, searchWeights (hammingWeightFn count useNumba hasCount).1 arr bufs out rowsum ops h = some ws ∧
        ws.map (fun w i => (w i).toNat) = (partialSums (h.cell arr) ops).map fun a i => numOnes (a i)) ∧
    (bufs.length = (symplecticWeightFn (N := N) count useNumba hasCount).2 →
      ∃ ws, searchWeights (symplecticWeightFn count useNumba hasCount).1 arr bufs out rowsum ops h = some ws ∧
        ws.map (fun w i => (w i).toNat) = (partialSums (h.cell arr) ops).map fun a i => numPairs (a i)) := by
  refine ⟨fun hl => ?_, fun hl => ?_⟩
  · refine searchWeights_spec rowsum (fun h hs => ?_) ops h hs
    obtain ⟨h', o, e, hcomp⟩ := C112_hamming hc useNumba hasCount h arr bufs (some out) (.inr hl) hs
    exact ⟨h', o, _, e, hcomp⟩
  · refine searchWeights_spec rowsum (fun h hs => ?_) ops h hs
    obtain ⟨h', o, e, hcomp⟩ := C112_symplectic hc useNumba hasCount h arr bufs (some out) (.inr hl) hs
    exact ⟨h', o, _, e, hcomp⟩

/-! ### The loops with arrays refine the loops on values -/

theorem foldlM_rel {α σ τ : Type} {R : σ → τ → Prop} {f : σ → α → Option σ} {g : τ → α → Option τ}
    (hfg : ∀ a s t, R s t → Option.Rel R (f s a) (g t a)) (l : List α) (s : σ) (t : τ) (h : R s t) :
    Option.Rel R (l.foldlM f s) (l.foldlM g t) := by
  induction l generalizing s t with
  | nil => exact .some h
  | cons a l ih =>
    rw [List.foldlM_cons, List.foldlM_cons]
    have := hfg a s t h
    revert this
    cases f s a <;> cases g t a <;> intro this <;> cases this
    · exact .none
    · rename_i h'
      exact ih _ _ h'

theorem bind_rel {σ τ σ' τ' : Type} {R : σ → τ → Prop} {R' : σ' → τ' → Prop} {x : Option σ} {y : Option τ}
    {f : σ → Option σ'} {g : τ → Option τ'} (h : Option.Rel R x y) (hfg : ∀ s t, R s t → Option.Rel R' (f s) (g t)) :
    Option.Rel R' (x.bind f) (y.bind g) := by
  cases h with
  | none => exact .none
  | some h => exact hfg _ _ h

/-- The heap holds the array of the state in `arr`, and the minimum is the same. -/
def Holds {R W : ℕ} (arr : ℕ) (bufs : List ℕ) (out : ℕ) (s : WordHeap (R * W) × ℕ) (t : SearchState) : Prop :=
  Separate s.1 arr bufs (some out) ∧ wordRows (s.1.cell arr) = t.1 ∧ s.2 = t.2

theorem wordRows_xor {R W : ℕ} (a : Fin (R * W) → BitVec 64) (op : Fin W → BitVec 64) :
    wordRows (R := R) (fun i => a i ^^^ op (finProdFinEquiv.symm i).2) = (wordRows a).map (xorRow · (List.ofFn op)) := by
  unfold wordRows
  rw [List.map_ofFn]
  congr 1
  funext r
  refine List.ext_getElem (by simp [xorRow]) fun c h1 h2 => ?_
  simp [xorRow]

theorem wordRows_map {R W : ℕ} (a : Fin (R * W) → BitVec 64) (f : BitVec 64 → BitVec 64) :
    wordRows (R := R) (W := W) (fun i => f (a i)) = (wordRows a).map (List.map f) := by
  unfold wordRows
  rw [List.map_ofFn]
  congr 1
  funext r
  simp [List.map_ofFn, Function.comp_def]

theorem heapStep_rel {R W : ℕ} {kernel : BitVec 64 → BitVec 64} {fn : WeightFn (R * W)} {arr : ℕ} {bufs : List ℕ} {out : ℕ}
    (rowsum : (Fin (R * W) → BitVec 64) → Fin (R * W) → BitVec 64)
    (hcall : ∀ h : WordHeap (R * W), Separate h arr bufs (some out) →
      ∃ h' o w, callWeight fn h arr bufs (some out) = some (h', o, w) ∧
        Computes (fun x => (kernel x).toNat) h arr bufs (some out) h' o)
    (op : Fin W → BitVec 64) (s : WordHeap (R * W) × ℕ) (t : SearchState) (hst : Holds arr bufs out s t) :
    Option.Rel (Holds arr bufs out) (heapStep fn arr bufs out rowsum op s) (searchStep kernel (List.ofFn op) t) := by
  obtain ⟨hs, ha, hm⟩ := hst
  have hs1 : Separate (s.1.write arr fun i => s.1.cell arr i ^^^ op (finProdFinEquiv.symm i).2) arr bufs (some out) :=
    ⟨hs.arr_used, hs.bufs_used, hs.out_used, hs.arr_bufs, hs.arr_out, hs.bufs_out⟩
  obtain ⟨h', o, w, e, c1, c2, -, c4, -, c6⟩ := hcall _ hs1
  obtain rfl := c2 out rfl
  have hne : arr ≠ o := fun e => hs.arr_out (by rw [e])
  have hcell : h'.cell o = fun i => kernel (s.1.cell arr i ^^^ op (finProdFinEquiv.symm i).2) := by
    funext i
    apply BitVec.eq_of_toNat_eq
    rw [c1, write_cell, if_pos rfl]
  have harr : h'.cell arr = fun i => s.1.cell arr i ^^^ op (finProdFinEquiv.symm i).2 := by
    rw [c6 arr hs.arr_used hs.arr_bufs hs.arr_out, write_cell, if_pos rfl]
  have hmin : (wordRows (R := R) (W := W) (h'.cell o)).foldlM (fun m row => (inplaceRowsum row).map fun x => min m x.toNat) s.2 =
      blockMin kernel 64 (t.1.map (xorRow · (List.ofFn op))) t.2 := by
    rw [hcell, wordRows_map (fun i => s.1.cell arr i ^^^ op (finProdFinEquiv.symm i).2) kernel, wordRows_xor, ha, hm, blockMin,
      List.foldlM_map]
    simp only [BitVec.setWidth_eq]
  unfold heapStep searchStep
  rw [e]
  simp only
  rw [hmin]
  cases blockMin kernel 64 (t.1.map (xorRow · (List.ofFn op))) t.2 with
  | none => exact .none
  | some m =>
    refine .some ⟨⟨hs.arr_used.trans_le c4, fun b hb => (hs.bufs_used b hb).trans_le c4, fun o e => (hs.out_used o e).trans_le c4,
      hs.arr_bufs, hs.arr_out, hs.bufs_out⟩, ?_, rfl⟩
    show wordRows ((h'.write o _).cell arr) = _
    rw [write_cell, if_neg hne, harr, wordRows_xor, ha]

theorem heapLoops_rel {R W : ℕ} {kernel : BitVec 64 → BitVec 64} {fn : WeightFn (R * W)} {arr : ℕ} {bufs : List ℕ} {out : ℕ}
    (rowsum : (Fin (R * W) → BitVec 64) → Fin (R * W) → BitVec 64)
    (hcall : ∀ h : WordHeap (R * W), Separate h arr bufs (some out) →
      ∃ h' o w, callWeight fn h arr bufs (some out) = some (h', o, w) ∧
        Computes (fun x => (kernel x).toNat) h arr bufs (some out) h' o)
    (logicals stabs : List (Fin W → BitVec 64)) (s : WordHeap (R * W) × ℕ) (t : SearchState) (hst : Holds arr bufs out s t) :
    Option.Rel (Holds arr bufs out) (heapLogicalLoop fn arr bufs out rowsum logicals stabs s)
      (logicalLoop kernel (logicals.map List.ofFn) (stabs.map List.ofFn) t) := by
  have hstab : ∀ s t, Holds arr bufs out s t → Option.Rel (Holds arr bufs out) (heapStabLoop fn arr bufs out rowsum stabs s)
      (stabLoop kernel (stabs.map List.ofFn) t) := by
    intro s t hst
    unfold heapStabLoop stabLoop
    rw [List.length_map]
    refine foldlM_rel (fun a s t hst => ?_) _ s t hst
    rw [List.getElem?_map]
    cases stabs[countTrailingZeros a]? with
    | none => exact .none
    | some op => exact heapStep_rel rowsum hcall op s t hst
  unfold heapLogicalLoop logicalLoop
  rw [List.length_map]
  refine foldlM_rel (fun a s t hst => ?_) _ s t hst
  rw [List.getElem?_map]
  cases logicals[countTrailingZeros a]? with
  | none => exact .none
  | some op =>
    simp only [Option.map_some, Option.bind_some]
    exact bind_rel (heapStep_rel rowsum hcall op s t hst) hstab

/-- **C112**, the loops: with buffers, an array for the weights and destructive sums, the loops of `get_distance_quantum` end with
the same array and the same minimum as the loops on values of C15, for every choice of the kernel. -/
theorem C112_loops {R W : ℕ} {count : BitVec 64 → BitVec 64} (hc : ∀ x, (count x).toNat = numOnes x) (useNumba hasCount : Bool)
    (h : WordHeap (R * W)) (arr : ℕ) (bufs : List ℕ) (out : ℕ) (rowsum : (Fin (R * W) → BitVec 64) → Fin (R * W) → BitVec 64)
    (logicals stabs : List (Fin W → BitVec 64)) (m : ℕ) (hs : Separate h arr bufs (some out)) :
    (bufs.length = (hammingWeightFn (N := R * W) count useNumba hasCount).2 →
      (heapLogicalLoop (hammingWeightFn count useNumba hasCount).1 arr bufs out rowsum logicals stabs (h, m)).map
          (fun r => (wordRows (r.1.cell arr), r.2)) =
        logicalLoop hammingKernel (logicals.map List.ofFn) (stabs.map List.ofFn) (wordRows (h.cell arr), m)) ∧
    (bufs.length = (symplecticWeightFn (N := R * W) count useNumba hasCount).2 →
      (heapLogicalLoop (symplecticWeightFn count useNumba hasCount).1 arr bufs out rowsum logicals stabs (h, m)).map
          (fun r => (wordRows (r.1.cell arr), r.2)) =
        logicalLoop symplecticKernel (logicals.map List.ofFn) (stabs.map List.ofFn) (wordRows (h.cell arr), m)) := by
  have fin : ∀ (x : Option (WordHeap (R * W) × ℕ)) (y : Option SearchState), Option.Rel (Holds arr bufs out) x y →
      x.map (fun r => (wordRows (r.1.cell arr), r.2)) = y := by
    intro x y hxy
    cases hxy with
    | none => rfl
    | some h => exact congrArg some (Prod.ext h.2.1 h.2.2)
  refine ⟨fun hl => ?_, fun hl => ?_⟩
  · refine fin _ _ (heapLoops_rel rowsum (fun h hs => ?_) logicals stabs _ _ ⟨hs, rfl, rfl⟩)
    obtain ⟨h', o, e, hcomp⟩ := C112_hamming hc useNumba hasCount h arr bufs (some out) (.inr hl) hs
    exact ⟨h', o, _, e, fun i => (hcomp.1 i).trans (C12_hamming _).symm, hcomp.2⟩
  · refine fin _ _ (heapLoops_rel rowsum (fun h hs => ?_) logicals stabs _ _ ⟨hs, rfl, rfl⟩)
    obtain ⟨h', o, e, hcomp⟩ := C112_symplectic hc useNumba hasCount h arr bufs (some out) (.inr hl) hs
    exact ⟨h', o, _, e, fun i => (hcomp.1 i).trans (C12_symplectic _).symm, hcomp.2⟩

/-- **C112**: an array for the result that is the array of words is refused by the assumptions for a reason: the array of
words is lost, and the weight is wrong. -/
theorem C112_alias_needed :
    let h : WordHeap 1 := ⟨fun _ _ => 3#64, 2⟩
    ((h.hammingBuffered 0 (some 1) (some 0)).1.cell 0 0).toNat ≠ numOnes (h.cell 0 0) := by
  decide +kernel

/-! ## Concrete cases -/

private def demoHeap : WordHeap 2 := ⟨fun a i => BitVec.ofNat 64 (a * 17 + 5 * i.val + 7), 3⟩

private theorem demo_separate : Separate demoHeap 0 [1] (some 2) :=
  ⟨by decide, by decide, by decide, by decide, by decide, by decide⟩

example := C112_hamming (count := hammingKernel) C12_hamming false false demoHeap 0 [1] (some 2) (.inr rfl) demo_separate
example := C112_symplectic (count := hammingKernel) C12_hamming false true demoHeap 0 [1] (some 2) (.inr rfl) demo_separate
example := (C112_search (count := hammingKernel) C12_hamming false true demoHeap 0 [1] 2 id [fun _ => 1, fun _ => 6] demo_separate).2 rfl

/-- A run with buffers: the words 7 and 12 become 6 and 13, then 0 and 11. -/
example : (searchWeights (hammingWeightFn id false false).1 0 [1] 2 (fun _ _ => 99) [fun _ => 1, fun _ => 6] demoHeap).map
    (List.map fun w => (List.ofFn w).map BitVec.toNat) = some [[2, 3], [0, 3]] := by decide +kernel

example := (C112_loops (R := 2) (W := 1) (count := hammingKernel) C12_hamming false false demoHeap 0 [1] 2 id [fun _ => 1] [fun _ => 6] 9
  demo_separate).1 rfl

/-- The loops with buffers on these words: the least weight is that of the zero word. -/
example : (heapLogicalLoop (R := 2) (W := 1) (hammingWeightFn id false false).1 0 [1] 2 (fun _ _ => 99) [fun _ => 1] [fun _ => 6]
    (demoHeap, 9)).map Prod.snd = some 0 := by decide +kernel

#print axioms C112_hamming
#print axioms C112_symplectic
#print axioms C112_search
#print axioms C112_loops
#print axioms C112_alias_needed

end QLDPC.Props
