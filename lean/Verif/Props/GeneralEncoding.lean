import Verif.Lemmas.GeneralEncoders

/-!
# Encoding tableaus of general subsystem codes

The part of C61 that is about all codes on qubits, without assumptions on how their logical operators are found.
-/

namespace QLDPC.Props

open QLDPC QLDPC.Spec

variable {n : ℕ}

/-- **C61** for all codes on qubits, stabilizer codes and subsystem codes: whenever `get_encoding_tableau` returns, the
rows are a symplectic basis, the first ones are the code's logical operators, then come the gauge operators, and the last
ones are the code's stabilizers with their destabilizers. -/
theorem C61_returned (M : Rows (ZMod 2) (n + n)) (sub : Bool) {t : Rows (ZMod 2) (n + n) × Rows (ZMod 2) (n + n)}
    (ht : (QCode.ofMatrix M (some sub)).encodingTableau = some t) :
    IsTableau t.1 t.2 ∧ ∃ LX LZ GX GZ D,
      t = (LX ++ GX ++ D, LZ ++ GZ ++ (QCode.ofMatrix M (some sub)).stabilizerOpsCanon) ∧
      (QCode.ofMatrix M (some sub)).getLogicalOps = some (LX ++ LZ) ∧
      LX.length = (QCode.ofMatrix M (some sub)).dimension ∧ LZ.length = LX.length ∧
      GX.length = (QCode.ofMatrix M (some sub)).gaugeDimension ∧ GZ.length = GX.length ∧
      D.length = (QCode.ofMatrix M (some sub)).stabilizerOpsCanon.length := by
  have hT : IsTableau t.1 t.2 := by
    have h := ht
    unfold QCode.encodingTableau at h
    simp only [Option.bind_eq_some_iff] at h
    obtain ⟨_, _, _, _, h⟩ := h
    rw [stimTableau_iff] at h
    rw [h.1]
    exact h.2
  have hex : ∃ L, (QCode.ofMatrix M (some sub)).getLogicalOps = some L := by
    have h := ht
    unfold QCode.encodingTableau at h
    rw [Option.bind_eq_some_iff] at h
    exact h.imp fun _ h => h.1
  obtain ⟨L, hL⟩ := hex
  obtain ⟨LX, LZ, rfl, hx, hz⟩ := ofMatrix_logicals hL
  obtain ⟨GX, GZ, D, h1, h2, h3⟩ := QCode.frame hL hx hz (by
    intro h
    have h' : sub = true := h
    subst h'
    rfl) ht
  refine ⟨hT, LX, LZ, GX, GZ, D, h1, hL, hx, hz.trans hx.symm, h3, h2.lenG.symm, ?_⟩
  have e1 := h2.tab.lenX
  have e2 := h2.len
  simp only [List.length_append] at e1
  omega

/-- **C61** fails for general subsystem codes: for the gauge group generated by `X_2 X_3` and `Z_1 Z_2` two logical X
operators anticommute (C70), Stim refuses the tableau, and `get_encoding_tableau` of the `QuditCode` raises. -/
theorem C61_subsystem_disagreement :
    (QCode.ofMatrix ([![0, 1, 1, 0, 0, 0], ![0, 0, 0, 1, 1, 0]] : Rows (ZMod 2) (3 + 3)) (some true)).encodingTableau = none := by
  cases h : (QCode.ofMatrix ([![0, 1, 1, 0, 0, 0], ![0, 0, 0, 1, 1, 0]] : Rows (ZMod 2) (3 + 3)) (some true)).encodingTableau with
  | none => rfl
  | some t =>
    exfalso
    obtain ⟨hT, LX, LZ, GX, GZ, D, rfl, hL, hx, -⟩ := C61_returned _ _ h
    have e : (QCode.ofMatrix ([![0, 1, 1, 0, 0, 0], ![0, 0, 0, 1, 1, 0]] : Rows (ZMod 2) (3 + 3)) (some true)).getLogicalOps =
        some ([![1, 1, 0, 1, 0, 0], ![0, 0, 1, 0, 1, 1]] ++ [![0, 0, 0, 1, 0, 0], ![0, 0, 0, 1, 1, 1]]) := by
      decide +kernel
    have hd : (QCode.ofMatrix ([![0, 1, 1, 0, 0, 0], ![0, 0, 0, 1, 1, 0]] : Rows (ZMod 2) (3 + 3)) (some true)).dimension = 2 := by
      decide +kernel
    rw [e, Option.some.injEq] at hL
    obtain ⟨rfl, -⟩ := List.append_inj hL (by rw [hx, hd]; rfl)
    have := hT.xx ![1, 1, 0, 1, 0, 0] (by simp) ![0, 0, 1, 0, 1, 1] (by simp)
    revert this
    decide +kernel

/-- The hypothesis of `C61_returned` is met by a subsystem code with one logical qubit and one gauge qubit. -/
example : let c := QCode.ofMatrix ([![1, 1, 0, 0], ![0, 0, 1, 0]] : Rows (ZMod 2) (2 + 2)) (some true)
    c.encodingTableau.isSome = true ∧ c.dimension = 1 ∧ c.gaugeDimension = 1 := by decide +kernel

#print axioms C61_returned
#print axioms C61_subsystem_disagreement

/-! ### Instances of the theorems: concrete cases meet the hypotheses -/

example : True := by
  obtain ⟨t, ht⟩ := Option.isSome_iff_exists.1
    (show (QCode.ofMatrix ([Fin.append ![1, 1] 0, Fin.append 0 ![1, 1]] : Rows (ZMod 2) (2 + 2)) (some false)).encodingTableau.isSome = true by decide +kernel)
  have h := C61_returned _ _ ht
  trivial

end QLDPC.Props
