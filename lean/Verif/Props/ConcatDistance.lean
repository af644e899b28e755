import Verif.Props.Concat
import Verif.Props.CssConcat
import Verif.Props.QuditDistance
import Verif.Lemmas.ConcatDistance

/-!
# Property C26: distances of concatenated qudit codes

The theorem is about the model of `QuditCode.concatenate` in `Verif/Model/Concat.lean`.
-/

namespace QLDPC.Props

open Spec

variable {F : Type} [Field F] [DecidableEq F] {n m : ℕ}

theorem indexList_blockCopies {N num : ℕ} (L : Rows F (n + n)) (w : List ℕ) (hk : 0 < L.length)
    (hlt : ∀ i ∈ w, i < num * L.length) :
    indexList (blockCopies (N := N) num L) w = some (List.ofFn fun j : Fin w.length => copyOp L w[j]) := by
  obtain ⟨L', e, l, g⟩ := indexList_get (blockCopies (N := N) num L) w (by rw [length_blockCopies]; exact hlt)
  rw [e]
  congr 1
  apply List.ext_getElem (by simp [l])
  intro i hi1 hi2
  have hiw : i < w.length := by omega
  have := g i hiw hi1
  have hb := hlt w[i] (List.getElem_mem _)
  rw [getElem?_blockCopies _ _ _ hb, List.getElem?_eq_getElem (Nat.mod_lt _ hk), Option.map_some,
    Option.some_inj] at this
  rw [← this, List.getElem_ofFn]
  unfold copyOp
  simp only [Fin.getElem_fin]
  rw [List.getD_eq_getElem _ _ (Nat.mod_lt _ hk)]

/-- If the qudits of each outer block are logical qudits of different inner blocks, then the distance of the
concatenated code is at least the product of the distances of its inner and outer codes, also for subsystem codes. -/
theorem C26_distance (inner : QCode F n) (outer : QCode F m) (LX LZ : Rows F (n + n))
    (KX KZ : Rows F (m + m)) (hi : Valid inner LX LZ) (ho : Valid outer KX KZ)
    (wiring? : Option (List ℕ)) (w : List ℕ) (hw : w = wiringOf m inner.dimension wiring?)
    (hperm : w.Perm (List.range w.length)) (hne : w ≠ [])
    (h1 : inner.dimension ∣ w.length) (h2 : m ∣ w.length)
    (hspread : ∀ (i j : ℕ) (hi : i < w.length) (hj : j < w.length), i / m = j / m →
      w[i] / inner.dimension = w[j] / inner.dimension → i = j)
    (inherit : Bool) (code : AnyQ F) (after : QCode F n)
    (hcode : concatenate inner outer wiring? inherit = .ok (code, after)) (d1 d2 : ℕ)
    (hd1 : IsCodeDistance inner.matrix d1) (hd2 : IsCodeDistance outer.matrix d2) :
    ∀ p, IsNontrivialLogical code.2.matrix p → d1 * d2 ≤ sweight p := by
  rw [hi.dim] at hw h1 hspread
  have hwl : 0 < w.length := List.length_pos_iff.2 hne
  have hk : 0 < LX.length := Nat.pos_of_dvd_of_pos h1 hwl
  have hlenZ : LZ.length = LX.length := hi.complete.basis.len.symm
  have hbi : w.length / LX.length * LX.length = w.length := Nat.div_mul_cancel h1
  have hbo : w.length / m * m = w.length := Nat.div_mul_cancel h2
  have hbi1 : 1 ≤ w.length / LX.length := (Nat.one_le_div_iff hk).2 (Nat.le_of_dvd hwl h1)
  have hlt : ∀ i ∈ w, i < w.length := fun i hi => List.mem_range.1 (hperm.mem_iff.1 hi)
  obtain ⟨N, code', after', e, hN, ⟨X, Z, hX, hZ, em, -⟩, -, -, -, fresh, e', fm, -⟩ :=
    C26_concatenate inner outer LX LZ KX KZ hi ho wiring? w hw hperm hne h1 h2
  have hc2 : ∃ c : QCode F N, code = ⟨N, c⟩ ∧ c.matrix = code'.matrix := by
    cases inherit with
    | true => rw [hcode] at e; cases e; exact ⟨_, rfl, rfl⟩
    | false => rw [hcode] at e'; cases e'; exact ⟨_, rfl, fm⟩
  obtain ⟨c, rfl, cm⟩ := hc2
  obtain ⟨N', si, ei, hN', hvi, -, hmi⟩ := copies_spec inner LX LZ hi _ hbi1
  obtain rfl : N' = N := by rw [hN', hN]
  have eX := indexList_blockCopies (N := N') (num := w.length / LX.length) LX w hk (by rw [hbi]; exact hlt)
  have eZ := indexList_blockCopies (N := N') (num := w.length / LX.length) LZ w (by omega)
    (by rw [hlenZ, hbi]; exact hlt)
  have hval := logComplete_wiring hvi.log w (by rw [length_blockCopies, hbi]; exact hperm) eX eZ
  rw [← funext hX, ← funext hZ, hmi] at hval
  have hcl : ∀ j : Fin w.length, w[j] / LX.length < w.length / LX.length := fun j => by
    rw [Nat.div_lt_iff_lt_mul hk, hbi]
    exact hlt _ (List.getElem_mem _)
  have hM : w.length = m * (w.length / m) := by rw [Nat.mul_comm]; exact hbo.symm
  have hinj : ∀ i j : Fin w.length, i.val / m = j.val / m → w[i] / LX.length = w[j] / LX.length → i = j :=
    fun i j h h' => Fin.ext (hspread i j i.isLt j.isLt h h')
  change ∀ p, IsNontrivialLogical c.matrix p → _
  rw [cm, em]
  intro p hp
  exact concat_sweight hN hM hval (fun j => w[j] / LX.length) (fun j => LX.getD (w[j] % LX.length) 0)
    (fun j => LZ.getD (w[j] % LZ.length) 0) hcl (fun j => by rw [hX j, copyOp])
    (fun j => by rw [hZ j, copyOp, hlenZ]) hinj (fun v hv => hd1.2 ⟨v, hv, rfl⟩) (fun v hv => hd2.2 ⟨v, hv, rfl⟩) p hp

/-- The five-qubit code concatenated with itself detects all errors of weight less than nine. -/
example : ∃ (code : QCode (ZMod 2) 25) (after : QCode (ZMod 2) 5),
    concatenate (QCode.ofMatrix fiveQubit) (QCode.ofMatrix fiveQubit) none true = .ok (⟨25, code⟩, after) ∧
      code.dimension = 1 ∧ ∀ p, IsNontrivialLogical code.matrix p → 3 * 3 ≤ sweight p := by
  have h : StabOk (QCode.ofMatrix fiveQubit) := stabOk_ofMatrix _ (by unfold AllCommute; decide +kernel)
  obtain ⟨LX, LZ, hv⟩ := h.valid
  have hk : (QCode.ofMatrix fiveQubit).dimension = 1 := by decide +kernel
  have hl : LX.length = 1 := by rw [← hv.dim, hk]
  obtain ⟨N, code, after, e, hN, -, hd, -⟩ :=
    C26_concatenate _ _ LX LZ LX LZ hv hv none [0, 1, 2, 3, 4] (by rw [hl]; rfl) (by decide) (by decide)
      (by rw [hl]; decide) (by decide)
  rw [hl] at hN
  obtain rfl : N = 25 := hN
  have h3 : IsCodeDistance (QCode.ofMatrix fiveQubit).matrix 3 := by
    obtain ⟨d, c', e1, e2, -⟩ := C72_exact 64 [1] (by decide) (by decide) (by decide) (by decide) _ h
    have e3 : ((QCode.ofMatrix fiveQubit).distance 64 [0, 1] none).1 = some (some 3) := by decide +kernel
    rw [e1] at e3
    obtain rfl : d = some 3 := Option.some_inj.1 e3
    exact e2
  exact ⟨code, after, e, by rw [hd, hk]; rfl, C26_distance _ _ LX LZ LX LZ hv hv none (interleavedWiring 5 1)
    (by rw [hk]; rfl) (by decide) (by decide) (by rw [hk]; decide) (by decide)
    (by rw [hk]; exact C80_default_spread 5 1 (by decide)) true _ _ e 3 3 h3 h3⟩

end QLDPC.Props

#print axioms QLDPC.Props.C26_distance
