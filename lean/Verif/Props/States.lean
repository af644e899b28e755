import Verif.Props.Transversal
import Verif.Lemmas.Encode

/-!
# Circuits and codes in terms of state vectors (C83)
-/

namespace QLDPC.Props

open QLDPC QLDPC.Spec

variable {n : ℕ}

/-! ## Gates -/

/-- **C83**: the tableaus of all gates are those of the unitary matrices of the gates. -/
theorem C83_gates (g : Instr) (p : SPauli n) (ψ : State n) :
    Instr.unitary g (p.act ψ) = ((g.tableau n).apply p).act (Instr.unitary g ψ) := instr_intertwines g p ψ

/-- **C83**: the unitary of a circuit conjugates Pauli operators as its tableau says. -/
theorem C83_circuits (c : List Instr) (p : SPauli n) (ψ : State n) :
    circuitUnitary c (p.act ψ) = ((circuitTableau n c).apply p).act (circuitUnitary c ψ) := circuit_intertwines c p ψ

/-- **C83**: circuits are linear and preserve norms. -/
theorem C83_isometry (c : List Instr) : IsIsometry (circuitUnitary c : State n → State n) :=
  ⟨circuit_linear c, circuit_norm c⟩

/-- **C83**: a unitary is determined, up to a phase, by what it does to Pauli operators, so that logical tableaus
determine logical gates. -/
theorem C83_unique {k : ℕ} {V W : State k → State k} (hV : IsIsometry V) (hW : IsIsometry W) {t : SPauli k → SPauli k}
    (h1 : ∀ P ψ, V (SPauli.act P ψ) = (t P).act (V ψ)) (h2 : ∀ P ψ, W (SPauli.act P ψ) = (t P).act (W ψ)) :
    ∃ c : ℂ, Complex.normSq c = 1 ∧ ∀ ψ, V ψ = c • W ψ := isometry_unique hV hW h1 h2

/-! ## Code spaces -/

/-- **C83**: the space of code states of a stabilizer code has dimension `2 ^ code.dimension`. -/
theorem C83_dimension (M : Rows (ZMod 2) (n + n)) (hM : AllCommute M) :
    Module.finrank ℂ (Submodule.span ℂ {ψ | IsCodeState (stabs M) ψ}) = 2 ^ (QCode.ofMatrix M (some false)).dimension := by
  obtain ⟨LX, LZ, D, -, -, h3, -, -, hF, -⟩ := stabs_frame M hM
  rw [span_codeStates, hF.finrank, h3]; rfl

/-- **C83**: the space of code states of a CSS code, stabilizer code or subsystem code, has dimension
`2 ^ (code.dimension + code.gauge_dimension)`. -/
theorem C83_dimension_css (c : CssCode (ZMod 2) n) (h : CssOk c) :
    Module.finrank ℂ (Submodule.span ℂ {ψ | IsCodeState c.canonicalStabs ψ}) = 2 ^ (c.dimension + c.gaugeDimension) := by
  obtain ⟨LX, LZ, GX, GZ, D, -, -, h3, h4, hF, -⟩ := css_frame c h
  rw [span_codeStates, hF.finrank, h3, h4]

theorem enc {S LX LZ D : Rows (ZMod 2) (n + n)} (hF : Frame S LX LZ [] [] D) {k : ℕ} (hk : LX.length = k) :
    ∃ E : State k → State n, IsEncoding S LX LZ E := by
  subst hk
  exact hF.exists_encoding

theorem enc_iff {S LX LZ D S' D' : Rows (ZMod 2) (n + n)} (hF : Frame S LX LZ [] [] D) (hF' : Frame S' LX LZ [] [] D')
    {k : ℕ} (hk : LX.length = k) {E E' : State k → State n} (hE : IsEncoding S LX LZ E) (hE' : IsEncoding S' LX LZ E')
    (c : List Instr) (t : SPauli k → SPauli k) :
    ImplementsLogical S S' LX LZ (circuitTableau n c).apply t ↔
      ∃ V : State k → State k, IsIsometry V ∧ (∀ ψ, circuitUnitary c (E ψ) = E' (V ψ)) ∧
        ∀ P ψ, V (SPauli.act P ψ) = (t P).act (V ψ) := by
  subst hk
  exact ⟨fun h => encoded hE hE' h, fun ⟨V, h1, h2, h3⟩ => hF.implements_of_states hF' hE hE' h1 h2 h3⟩

/-- **C83**, `get_encoding_tableau` for stabilizer codes: every unitary with this tableau encodes the first
`code.dimension` qubits.  If all other qubits are in the state 0, it maps states to code states, and Pauli operators on the
first qubits to logical operators; and all code states are reached. -/
theorem C83_encoder (M : Rows (ZMod 2) (n + n)) (hM : AllCommute M) :
    ∃ LX LZ xs zs, (QCode.ofMatrix M (some false)).encodingTableau = some (xs, zs) ∧
      (QCode.ofMatrix M (some false)).getLogicalOps = some (LX ++ LZ) ∧
      LX.length = (QCode.ofMatrix M (some false)).dimension ∧
      ∀ U : State n → State n, IsIsometry U → (∀ p ψ, U (SPauli.act p ψ) = ((tableauOf xs zs).apply p).act (U ψ)) →
        ∀ φ : State n, (IsCodeState (stabs M) (U φ) ↔ ∀ j : Fin n, LX.length ≤ j.val → (SPauli.Z j).act φ = φ) ∧
          ∀ P : SPauli LX.length, U ((embed n P).act φ) = (SPauli.logical LX LZ P).act (U φ) := by
  obtain ⟨LX, LZ, D, h1, h2, h3, -, -, hF, -⟩ := stabs_frame M hM
  refine ⟨LX, LZ, _, _, h1, h2, h3, fun U hU hT φ => ?_⟩
  rw [← frame_nil] at hT
  have hz : ∀ s, s ∈ stabs M ↔ ∃ j : Fin n, LX.length ≤ j.val ∧ (frameTableau (stabs M) LX LZ [] [] D).zs j = SPauli.plus s := by
    intro s
    have hs := hF.stab (SPauli.plus s)
    constructor
    · intro h
      obtain ⟨b, hb, e⟩ := hs.1 ⟨s, h, rfl⟩
      exact ⟨b, by simpa using hb, e.symm⟩
    · rintro ⟨j, hj, e⟩
      obtain ⟨s', hs', e'⟩ := hs.2 ⟨j, by simpa using hj, e.symm⟩
      have := congrArg SPauli.op e'
      have e2 : s = s' := this
      rw [e2]; exact hs'
  have hinj := Iso.injective hU
  refine ⟨⟨fun h j hj => ?_, fun h s hs => ?_⟩, fun P => ?_⟩
  · apply hinj
    rw [hT, Tableau.apply_Z]
    obtain ⟨s, hs, e⟩ := (hF.stab _).2 ⟨j, by simpa using hj, rfl⟩
    rw [e]
    exact h s hs
  · obtain ⟨j, hj, e⟩ := (hz s).1 hs
    rw [← e, ← Tableau.apply_Z, ← hT, h j hj]
  · rw [hT, hF.logical]

/-! ## Transversal gates -/

/-- **C83** for stabilizer codes, without deformation: there is an encoding of `code.dimension` qubits into the code for
which the code's logical operators are the Pauli operators of the encoded qubits; and for every automorphism, the
unitary of the returned circuit acts on encoded states as a unitary whose tableau is the returned logical tableau. -/
theorem C83_transversal (M : Rows (ZMod 2) (n + n)) (hM : AllCommute M) :
    ∃ LX LZ, (QCode.ofMatrix M (some false)).getLogicalOps = some (LX ++ LZ) ∧ LX.length = LZ.length ∧
      ∃ E : State (QCode.ofMatrix M (some false)).dimension → State n, IsEncoding (stabs M) LX LZ E ∧
      ∀ (g : GateSet) (σ : Equiv.Perm (Fin (g.numSectors * n))), σ ∈ Subgroup.closure {τ | τ ∈ columnPerms g g.numSectors n} →
        (∀ c, IsWord (instrumental g (effectiveChecks M [] false)) c →
          IsWord (instrumental g (effectiveChecks M [] false)) (c ∘ σ)) →
        ∃ d, (QCode.ofMatrix M (some false)).transversalData g false (callPerm σ) = some d ∧
          ∃ V : State (QCode.ofMatrix M (some false)).dimension → State (QCode.ofMatrix M (some false)).dimension,
            IsIsometry V ∧ (∀ ψ, circuitUnitary d.2 (E ψ) = E (V ψ)) ∧
            ∀ P ψ, V (SPauli.act P ψ) = (d.1.apply P).act (V ψ) := by
  obtain ⟨LX, LZ, D, -, h2, h3, -, -, hF, -⟩ := stabs_frame M hM
  obtain ⟨E, hE⟩ := enc hF h3
  refine ⟨LX, LZ, h2, hF.lenL, E, hE, fun g σ hσ haut => ?_⟩
  obtain ⟨LX', LZ', circ, T, u, a1, a2, a3, a4, a5, a6, a7⟩ := C81_stabilizer M hM hσ haut
  rw [h2, Option.some.injEq] at a1
  obtain ⟨rfl, rfl⟩ := List.append_inj a1 (by rw [h3, a2])
  exact ⟨_, a5, (enc_iff hF hF h3 hE hE _ _).1 a7⟩

/-- **C83** for searches in stabilizer codes, with or without deformation: a returned circuit acts on encoded states as a
unitary with the requested tableau, where the states after the circuit are encoded in the deformed code if deformations
are allowed; if no circuit is returned, then no circuit of a searched permutation behind any Pauli gates acts in this
way. -/
theorem C83_search (M : Rows (ZMod 2) (n + n)) (hM : AllCommute M) (g : GateSet) (deform : Bool) (auts : List (ℕ → ℕ))
    (targets : List (Tableau (QCode.ofMatrix M (some false)).dimension)) (hT : ∀ t ∈ targets, t.Valid)
    {res : List (Option (List Instr))}
    (hres : (QCode.ofMatrix M (some false)).getTransversalCircuits g deform auts targets = some res) :
    ∃ LX LZ, (QCode.ofMatrix M (some false)).getLogicalOps = some (LX ++ LZ) ∧ LX.length = LZ.length ∧
      ∃ E : State (QCode.ofMatrix M (some false)).dimension → State n, IsEncoding (stabs M) LX LZ E ∧
      List.Forall₂ (fun t r =>
        (∀ c, r = some c → ∃ σ ∈ auts, ∃ circ, automorphismCircuit g n σ = some circ ∧ ∃ u v : Fin (n + n) → ZMod 2,
          c = pauliStringCircuit v ++ (pauliStringCircuit u ++ circ.map Instr.gate) ∧
          ∃ E' : State (QCode.ofMatrix M (some false)).dimension → State n,
            IsEncoding (stabsAfter false M deform circ) LX LZ E' ∧
          ∃ V : State (QCode.ofMatrix M (some false)).dimension → State (QCode.ofMatrix M (some false)).dimension,
            IsIsometry V ∧ (∀ ψ, circuitUnitary c (E ψ) = E' (V ψ)) ∧
            ∀ P ψ, V (SPauli.act P ψ) = (t.apply P).act (V ψ)) ∧
        (r = none → ∀ σ ∈ auts, ∃ circ, automorphismCircuit g n σ = some circ ∧
          ∃ E' : State (QCode.ofMatrix M (some false)).dimension → State n,
            IsEncoding (stabsAfter false M deform circ) LX LZ E' ∧
          ∀ u : Fin (n + n) → ZMod 2,
          ¬ ∃ V : State (QCode.ofMatrix M (some false)).dimension → State (QCode.ofMatrix M (some false)).dimension,
            IsIsometry V ∧ (∀ ψ, circuitUnitary (pauliStringCircuit u ++ circ.map Instr.gate) (E ψ) = E' (V ψ)) ∧
            ∀ P ψ, V (SPauli.act P ψ) = (t.apply P).act (V ψ))) targets res := by
  obtain ⟨LX, LZ, D, -, h2, h3, -, -, hF, -⟩ := stabs_frame M hM
  obtain ⟨E, hE⟩ := enc hF h3
  refine ⟨LX, LZ, h2, hF.lenL, E, hE, ?_⟩
  obtain ⟨LX', LZ', a1, a2, a3, a4⟩ := circuits_core M false g deform auts targets hT hres
  rw [h2, Option.some.injEq] at a1
  obtain ⟨rfl, rfl⟩ := List.append_inj a1 (by rw [h3, a2])
  have hframe : ∀ σ circ, (∃ d, (QCode.ofMatrix M (some false)).transversalData g deform σ = some d) →
      automorphismCircuit g n σ = some circ → ∃ D', Frame (stabsAfter false M deform circ) LX LZ [] [] D' := by
    rintro σ circ ⟨d, hd⟩ hc
    obtain ⟨circ', b1, -, -, GX', GZ', D', b2, b3⟩ := code_data h2 h3 (hF.lenL.symm.trans h3) hd
    rw [hc, Option.some.injEq] at b1
    subst b1
    have e1 : GX' = [] := List.length_eq_zero_iff.1 b3
    have e2 : GZ' = [] := List.length_eq_zero_iff.1 (b2.lenG.symm.trans b3)
    subst e1 e2
    exact ⟨D', b2⟩
  refine a4.imp fun t r hr => ⟨fun c hc => ?_, fun hn σ hσ => ?_⟩
  · obtain ⟨σ, hσ, hd, circ, b1, u, v, b2, b3⟩ := hr.1 c hc
    obtain ⟨D', hF'⟩ := hframe σ circ hd b1
    obtain ⟨E', hE'⟩ := enc hF' h3
    exact ⟨σ, hσ, circ, b1, u, v, b2, E', hE', (enc_iff hF hF' h3 hE hE' _ _).1 b3⟩
  · obtain ⟨hd, circ, b1, b2⟩ := hr.2 hn σ hσ
    obtain ⟨D', hF'⟩ := hframe σ circ hd b1
    obtain ⟨E', hE'⟩ := enc hF' h3
    exact ⟨circ, b1, E', hE', fun u hV => b2 u ((enc_iff hF hF' h3 hE hE' _ _).2 hV)⟩

/-- **C83** for CSS codes, both stabilizer codes and subsystem codes: the circuit of an automorphism maps precisely the
code states to code states, and on code states intertwines logical operators as the returned tableau says. -/
theorem C83_css (c : CssCode (ZMod 2) n) (h : CssOk c) {g : GateSet}
    {σ : Equiv.Perm (Fin (g.numSectors * n))} (hσ : σ ∈ Subgroup.closure {τ | τ ∈ columnPerms g g.numSectors n})
    (haut : ∀ w, IsWord (instrumental g (effectiveChecks (blockDiag2 c.hx c.hz) [] false)) w →
      IsWord (instrumental g (effectiveChecks (blockDiag2 c.hx c.hz) [] false)) (w ∘ σ)) :
    ∃ LX LZ d, (∃ L, c.logicals = some L ∧ xzRows L = LX ++ LZ) ∧ LX.length = c.dimension ∧ LX.length = LZ.length ∧
      c.transversalData g false (callPerm σ) = some d ∧
      ∀ ψ, (IsCodeState c.canonicalStabs (circuitUnitary d.2 ψ) ↔ IsCodeState c.canonicalStabs ψ) ∧
        ∀ P, IsCodeState c.canonicalStabs ψ → circuitUnitary d.2 ((SPauli.logical LX LZ P).act ψ) =
          (SPauli.logical LX LZ (d.1.apply P)).act (circuitUnitary d.2 ψ) := by
  obtain ⟨LX, LZ, circ, T, u, a1, a2, a3, a4, a5, a6, a7⟩ := C81_css c h hσ haut
  exact ⟨LX, LZ, _, a1, a2, a3, a5, fun ψ => implements_states a7
    (fun p => ⟨_, (circuitTableau_valid _).apply_preimage p⟩) ψ⟩

/-! ## Examples -/

/-- A Hadamard gate maps the basis state 0 to a state with two equal amplitudes. -/
example : (circuitUnitary [Instr.gate (.H 0)] (Pi.single 0 1) : State 1) = fun _ => 1 / ((√2 : ℝ) : ℂ) := by
  funext b
  change onQubit ⟨0, _⟩ _ _ b = _
  rw [onQubit_apply]
  have h : ∀ b : Fin 1 → ZMod 2, (b = 0 ∨ b = 1) := by decide
  have e : ∀ c : ZMod 2, Function.update b (0 : Fin 1) c = fun _ => c := by
    intro c; funext i; have := Subsingleton.elim i 0; subst this; simp
  change _ * (Pi.single (0 : Fin 1 → ZMod 2) (1 : ℂ) : State 1) (Function.update b (0 : Fin 1) 0) +
    _ * (Pi.single (0 : Fin 1 → ZMod 2) (1 : ℂ) : State 1) (Function.update b (0 : Fin 1) 1) = _
  have e1 : (Pi.single (0 : Fin 1 → ZMod 2) (1 : ℂ) : State 1) (fun _ => 1) = 0 := Pi.single_eq_of_ne (by decide) _
  have e2 : (Pi.single (0 : Fin 1 → ZMod 2) (1 : ℂ) : State 1) (fun _ => 0) = 1 := Pi.single_eq_same _ _
  rw [e, e, e1, e2, mul_zero, add_zero, mul_one]
  rcases h b with rfl | rfl <;> simp [gateMatrix, mat2]

/-- The `[[4, 2, 2]]` code has a space of code states of dimension 4. -/
example : Module.finrank ℂ (Submodule.span ℂ {ψ | IsCodeState (stabs checks422) ψ}) = 4 := by
  rw [C83_dimension checks422 (by unfold AllCommute; decide +kernel)]
  have : (QCode.ofMatrix checks422 (some false)).dimension = 2 := by decide +kernel
  rw [this]; norm_num

/-- The hypotheses of `C83_transversal` are met by an automorphism with Hadamard gates. -/
example := (C83_transversal checksXXYY hadamards2_ok.1).imp fun _ h => h.imp fun _ h =>
  h.2.2.imp fun _ h => h.2 { h := true } hadamards2 hadamards2_ok.2.1 hadamards2_ok.2.2

#print axioms C83_gates
#print axioms C83_circuits
#print axioms C83_isometry
#print axioms C83_unique
#print axioms C83_dimension
#print axioms C83_dimension_css
#print axioms C83_encoder
#print axioms C83_transversal
#print axioms C83_search
#print axioms C83_css

/-! ### Instances of the theorems: concrete cases meet the hypotheses -/

private def graphState : Rows (ZMod 2) (2 + 2) := [Fin.append ![1, 0] ![0, 1], Fin.append ![0, 1] ![1, 0]]
private theorem graphState_commute : AllCommute graphState := by unfold AllCommute; decide +kernel
example := C83_encoder graphState graphState_commute
example := C83_dimension_css (CssCode.ofMatrices ([![1, 1, 1, 1]] : Rows (ZMod 2) 4) [![1, 1, 1, 1]] (some false) false) (cssOk_ofMatrices _ _ _ _ (fun _ => by decide +kernel) (by simp))

example := (C83_search checks422 (by unfold AllCommute; decide +kernel) { swap := true } false [callPerm (1 : Equiv.Perm (Fin (2 * 4)))] [] (by simp)
  (Option.some_get (show ((QCode.ofMatrix checks422 (some false)).getTransversalCircuits { swap := true } false
    [callPerm (1 : Equiv.Perm (Fin (2 * 4)))] []).isSome = true by decide +kernel)).symm)

example (k : ℕ) := C83_unique (k := k) (V := id) (W := id) ⟨fun _ _ _ _ => rfl, fun _ => rfl⟩ ⟨fun _ _ _ _ => rfl, fun _ => rfl⟩ (t := id) (fun _ _ => rfl) (fun _ _ => rfl)

private theorem c422_css' : CssOk (CssCode.ofMatrices ([![1, 1, 1, 1]] : Rows (ZMod 2) 4) [![1, 1, 1, 1]] (some false) false) :=
  cssOk_ofMatrices _ _ _ _ (fun _ => by decide +kernel) (by simp)
private def exchange422 : Equiv.Perm (Fin (2 * 4)) := Equiv.swap 0 1 * Equiv.swap 4 5
example := C83_css _ c422_css' (g := { swap := true }) (σ := exchange422) (Subgroup.subset_closure (by show _ ∈ columnPerms { swap := true } 2 4; decide +kernel)) (by
  show ∀ w : Fin (2 * 4) → ZMod 2, IsWord (instrumental { swap := true } (effectiveChecks (blockDiag2 [![1, 1, 1, 1]] [![1, 1, 1, 1]]) [] false)) w →
      IsWord (instrumental { swap := true } (effectiveChecks (blockDiag2 [![1, 1, 1, 1]] [![1, 1, 1, 1]]) [] false)) (w ∘ exchange422)
  unfold IsWord; decide +kernel)

end QLDPC.Props
