import Verif.Model.QubitGuard
import Verif.Props.Text

/-!
# C103: which codes the circuit functions accept
-/

namespace QLDPC.Props

open QLDPC QLDPC.Spec

variable {C T G R : Type}

/-- The call raises. -/
def CallRaises {α : Type} (r : Except String α) : Prop := ∃ e, r = .error e

private theorem restrict_qudit {α : Type} {order : C → ℕ} {c : C} (hc : order c ≠ 2) (func : Call C → Except String α)
    {call : Call C} (h : .code c ∈ call.args) : restrictToQubits order func call = .error "ValueError" := by
  unfold restrictToQubits
  rw [if_pos]
  rw [List.any_eq_true]
  exact ⟨_, h, by simpa [CallArg.isQudit] using hc⟩

private theorem restrict_head {α : Type} {order : C → ℕ} {c : C} (hc : order c ≠ 2) (func : Call C → Except String α)
    (rest : List (CallArg C)) (kw : List (String × CallArg C)) :
    restrictToQubits order func ⟨.code c :: rest, kw⟩ = .error "ValueError" :=
  restrict_qudit hc func (by simp)

private theorem restrict_pass {α : Type} {order : C → ℕ} (func : Call C → Except String α) {call : Call C}
    (h : ∀ c, .code c ∈ call.args → order c = 2) : restrictToQubits order func call = func call := by
  unfold restrictToQubits
  rw [if_neg]
  rw [List.any_eq_true]
  rintro ⟨a, ha, hq⟩
  cases a with
  | code c => simp [CallArg.isQudit, h c ha] at hq
  | other => simp [CallArg.isQudit] at hq

/-- C103: a code that is not on qubits among the positional arguments makes each of the functions raise a `ValueError`,
whatever the other arguments are and whatever the functions compute. -/
theorem C103_positional (b : CircuitBodies C T G R) (deform : Bool) {c : C} (hc : b.order c ≠ 2)
    (rest : List (CallArg C)) (kw : List (String × CallArg C)) :
    let call : Call C := ⟨.code c :: rest, kw⟩
    b.getEncodingTableau call = .error "ValueError" ∧ b.getEncodingCircuit call = .error "ValueError" ∧
    b.getEncoderAndDecoder deform call = .error "ValueError" ∧ b.getLogicalTableau deform call = .error "ValueError" ∧
    b.getAutomorphismGroup call = .error "ValueError" ∧ b.getTransversalOps call = .error "ValueError" ∧
    b.getTransversalCircuits call = .error "ValueError" ∧ b.getTransversalCircuit call = .error "ValueError" := by
  refine ⟨restrict_head hc _ _ _, restrict_head hc _ _ _, restrict_head hc _ _ _, restrict_head hc _ _ _,
    restrict_head hc _ _ _, restrict_head hc _ _ _, restrict_head hc _ _ _, ?_⟩
  unfold CircuitBodies.getTransversalCircuit
  simp only [Call.theCode, Except.bind]
  exact restrict_head hc _ _ _

/-- C103, the part of the property that holds for codes given by keyword: six of the eight functions hand their code over
to another one of them as a positional argument, so they raise as well (the search for circuits may raise for another
reason before).  Missing: `get_encoding_tableau` and `get_transversal_automorphism_group`, which accept such a code, see
`C103_keyword_disagreement`. -/
theorem C103_keyword_partial (b : CircuitBodies C T G R) (deform : Bool) {c : C} (hc : b.order c ≠ 2)
    (kw : List (String × CallArg C)) :
    let call : Call C := ⟨[], ("code", .code c) :: kw⟩
    b.getEncodingCircuit call = .error "ValueError" ∧
    b.getEncoderAndDecoder deform call = .error "ValueError" ∧ b.getLogicalTableau deform call = .error "ValueError" ∧
    b.getTransversalOps call = .error "ValueError" ∧
    CallRaises (b.getTransversalCircuits call) ∧ b.getTransversalCircuit call = .error "ValueError" := by
  have hp := C103_positional b deform hc
  have hcode : Call.theCode (⟨[], ("code", .code c) :: kw⟩ : Call C) = .ok c := by simp [Call.theCode]
  have hpass : ∀ {α : Type} (func : Call C → Except String α),
      restrictToQubits b.order func ⟨[], ("code", .code c) :: kw⟩ = func ⟨[], ("code", .code c) :: kw⟩ :=
    fun func => restrict_pass func (by simp)
  refine ⟨?_, ?_, ?_, ?_, ?_, ?_⟩
  · unfold CircuitBodies.getEncodingCircuit
    rw [hpass, hcode]
    simp only [Except.bind, (hp _ _).1, Except.map]
  · unfold CircuitBodies.getEncoderAndDecoder
    rw [hpass, hcode]
    simp only [Except.bind, (hp _ _).1]
  · unfold CircuitBodies.getLogicalTableau
    rw [hpass, hcode]
    simp only [Except.bind, (hp _ _).2.2.1]
  · unfold CircuitBodies.getTransversalOps
    rw [hpass, hcode]
    simp only [Except.bind, (hp _ _).2.2.2.2.1]
  · unfold CircuitBodies.getTransversalCircuits
    rw [hpass, hcode]
    simp only [Except.bind, (hp _ _).2.2.2.2.1]
    by_cases h0 : b.dimension c = 0
    · exact ⟨_, by rw [if_pos h0]⟩
    · rw [if_neg h0]
      cases b.targets c with
      | error e => exact ⟨e, rfl⟩
      | ok u => exact ⟨_, rfl⟩
  · unfold CircuitBodies.getTransversalCircuit
    rw [hcode]
    simp only [Except.bind, (hp _ _).2.2.2.2.2.2.1]

/-- C103: for a code on qubits, given either way, the guards do not change what the functions compute.  The deformed code
is a code over the same field. -/
theorem C103_qubits (b : CircuitBodies C T G R) {c : C} (hc : b.order c = 2)
    (hdef : ∀ c', b.deformed c = .ok c' → b.order c' = 2) (call : Call C)
    (hcall : call = ⟨[.code c], []⟩ ∨ call = ⟨[], [("code", .code c)]⟩) :
    b.getEncodingTableau call = b.tableau c ∧
    b.getEncodingCircuit call = (b.tableau c).map b.toCircuit ∧
    b.getEncoderAndDecoder false call = (b.tableau c).map (fun t => (t, b.inverse t)) ∧
    b.getEncoderAndDecoder true call = (do
      let t ← b.tableau c
      let c' ← b.deformed c
      let t' ← b.tableau c'
      .ok (t, b.inverse t')) ∧
    b.getAutomorphismGroup call = b.group c ∧
    b.getTransversalOps call = (b.group c).bind (b.ops c) ∧
    (b.dimension c ≠ 0 → b.getTransversalCircuits call = (do
      b.targets c
      let g ← b.group c
      b.search c g)) ∧
    b.getTransversalCircuit call = b.getTransversalCircuits call := by
  have hcode : call.theCode = .ok c := by
    rcases hcall with rfl | rfl
    · rfl
    · simp [Call.theCode]
  have hargs : ∀ d, .code d ∈ call.args → b.order d = 2 := by
    rcases hcall with rfl | rfl
    · intro d hd
      simp only [List.mem_singleton, CallArg.code.injEq] at hd
      rw [hd]; exact hc
    · simp
  have hpass : ∀ {α : Type} (func : Call C → Except String α), restrictToQubits b.order func call = func call :=
    fun func => restrict_pass func hargs
  have hin : ∀ {α : Type} (func : Call C → Except String α) (d : C) (k : ℕ) (kw : List (String × CallArg C)),
      b.order d = 2 → restrictToQubits b.order func ⟨.code d :: List.replicate k .other, kw⟩ =
        func ⟨.code d :: List.replicate k .other, kw⟩ := by
    intro α func d k kw hd
    refine restrict_pass func fun e he => ?_
    simp only [List.mem_cons, CallArg.code.injEq, List.mem_replicate, reduceCtorEq, and_false, or_false] at he
    rw [he]; exact hd
  have htab : ∀ d, b.order d = 2 → b.getEncodingTableau ⟨[.code d], []⟩ = b.tableau d := by
    intro d hd
    exact (hin _ d 0 [] hd).trans rfl
  have hgrp : b.getAutomorphismGroup ⟨[.code c, .other], [("deform_code", .other)]⟩ = b.group c :=
    (hin _ c 1 _ hc).trans rfl
  have hcirc : b.getTransversalCircuits call = if b.dimension c = 0 then .error "ValueError" else
      (b.targets c).bind fun _ => (b.group c).bind (b.search c) := by
    unfold CircuitBodies.getTransversalCircuits
    rw [hpass, hcode]
    simp only [Except.bind]
    rw [hgrp]
  refine ⟨?_, ?_, ?_, ?_, ?_, ?_, ?_, ?_⟩
  · unfold CircuitBodies.getEncodingTableau
    rw [hpass, hcode]; rfl
  · unfold CircuitBodies.getEncodingCircuit
    rw [hpass, hcode]
    simp only [Except.bind]
    rw [htab c hc]
  · unfold CircuitBodies.getEncoderAndDecoder
    rw [hpass, hcode]
    simp only [Except.bind]
    rw [htab c hc]
    cases b.tableau c <;> rfl
  · unfold CircuitBodies.getEncoderAndDecoder
    rw [hpass, hcode]
    simp only [Except.bind]
    rw [htab c hc]
    cases b.tableau c with
    | error e => rfl
    | ok t =>
      cases hd : b.deformed c with
      | error e => rfl
      | ok c' =>
        simp only [if_true]
        rw [htab c' (hdef c' hd)]
        simp only [bind, Except.bind]
        cases b.tableau c' <;> rfl
  · unfold CircuitBodies.getAutomorphismGroup
    rw [hpass, hcode]; rfl
  · unfold CircuitBodies.getTransversalOps
    rw [hpass, hcode]
    simp only [Except.bind]
    rw [hgrp]
  · intro h0
    rw [hcirc, if_neg h0]
    rfl
  · rw [hcirc]
    unfold CircuitBodies.getTransversalCircuit
    rw [hcode]
    simp only [Except.bind]
    have : b.getTransversalCircuits ⟨[.code c, .other, .other], [("deform_code", .other)]⟩ =
        if b.dimension c = 0 then .error "ValueError" else
          (b.targets c).bind fun _ => (b.group c).bind (b.search c) := by
      refine (hin _ c 2 _ hc).trans ?_
      show (if b.dimension c = 0 then _ else _) = _
      rw [hgrp]
    rw [this]
    rfl

/-- C103, disagreement: on a code without logical qubits the search for circuits raises for every list of targets, also
for an empty one. -/
theorem C103_no_logical_qubits_disagreement (b : CircuitBodies C T G R) {c : C} (h0 : b.dimension c = 0) :
    b.getTransversalCircuits ⟨[.code c], []⟩ = .error "ValueError" ∧
    b.getTransversalCircuits ⟨[], [("code", .code c)]⟩ = .error "ValueError" := by
  constructor
  · unfold CircuitBodies.getTransversalCircuits restrictToQubits
    split_ifs
    · rfl
    · simp [Call.theCode, Except.bind, h0]
  · unfold CircuitBodies.getTransversalCircuits
    rw [restrict_pass _ (by simp)]
    simp [Call.theCode, Except.bind, h0]

private theorem lettersOf_binary {n : ℕ} (fi : FieldInts (ZMod 2)) (h0 : fi.toInt 0 = 0) (h1 : fi.toInt 1 = 1)
    (M : Rows (ZMod 2) (n + n)) : lettersOf fi M = some M := by
  have hv : ∀ a : ZMod 2, fi.toInt a = if a = 0 then 0 else 1 := by
    intro a
    have ha : ∀ a : ZMod 2, a = 0 ∨ a = 1 := by decide
    rcases ha a with rfl | rfl
    · rw [h0, if_pos rfl]
    · rw [h1, if_neg (by decide)]
  have key : ∀ r : Fin (n + n) → ZMod 2, (opToString fun i => fi.toInt (r i)).map readLetters = some r := by
    intro r
    have hz : ∀ a : ZMod 2, a ≠ 0 → a = 1 := by decide
    have hs : opToString (fun i => fi.toInt (r i)) = some ((List.finRange n).map fun i =>
        if xPart r i = 0 then (if zPart r i = 0 then ['I'] else ['Z'])
        else if zPart r i = 0 then ['X'] else ['Y']) := by
      rw [C18_op_to_string]
      refine ⟨fun j => ?_, by simp, fun i => ?_⟩
      · simp only [hv]
        split_ifs
        · exact Or.inl rfl
        · exact Or.inr rfl
      · simp only [List.get_eq_getElem, List.getElem_map, List.getElem_finRange]
        change (if r (Fin.castAdd n i) = 0 then (if r (Fin.natAdd n i) = 0 then ['I'] else ['Z'])
          else if r (Fin.natAdd n i) = 0 then ['X'] else ['Y']) = _
        simp only [xPart, zPart, hv]
        by_cases hx : r (Fin.castAdd n i) = 0 <;> by_cases hzz : r (Fin.natAdd n i) = 0 <;>
          simp [hx, hzz, -Fin.natAdd_eq_addNat]
    rw [hs]
    simp only [Option.map_some, Option.some.injEq]
    have hget : ∀ (f : Fin n → List Char) (i : Fin n), ((List.finRange n).map f)[i.val]? = some (f i) := by
      intro f i
      rw [List.getElem?_eq_getElem (by simp)]
      simp
    funext j
    refine Fin.addCases (fun i => ?_) (fun i => ?_) j
    · simp only [readLetters, Fin.append_left, hget, xPart, zPart]
      by_cases hx : r (Fin.castAdd n i) = 0 <;> by_cases hzz : r (Fin.natAdd n i) = 0 <;>
        first
        | simp [hx, hzz, -Fin.natAdd_eq_addNat]; done
        | simp [hx, hzz, hz _ hx, -Fin.natAdd_eq_addNat]; done
    · simp only [readLetters, Fin.append_right, hget, xPart, zPart]
      by_cases hx : r (Fin.castAdd n i) = 0 <;> by_cases hzz : r (Fin.natAdd n i) = 0 <;>
        first
        | simp [hx, hzz, -Fin.natAdd_eq_addNat]; done
        | simp [hx, hzz, hz _ hzz, -Fin.natAdd_eq_addNat]; done
  unfold lettersOf
  simp only [key]
  induction M with
  | nil => rfl
  | cons r M ih => simp [List.mapM_cons, ih]

/-- C103: for codes on qubits the detour over the letters of Pauli operators changes nothing: the tableau is the one of
C61. -/
theorem C103_letters {n : ℕ} (fi : FieldInts (ZMod 2)) (h0 : fi.toInt 0 = 0) (h1 : fi.toInt 1 = 1) (c : QCode (ZMod 2) n)
    (t : Rows (ZMod 2) (n + n) × Rows (ZMod 2) (n + n)) :
    c.tableauBody fi = .ok t ↔ c.encodingTableau = some t := by
  have h : c.tableauAny fi = c.encodingTableau := by
    unfold QCode.tableauAny QCode.encodingTableau
    simp only [lettersOf_binary fi h0 h1, Option.bind_some]
  unfold QCode.tableauBody
  rw [h]
  cases c.encodingTableau with
  | none => simp
  | some t' => simp

/-- The code on two qutrits that is stabilized by Z on the first one. -/
def qutritZ : QCode (ZMod 3) 2 := QCode.ofMatrix [![0, 0, 1, 0]]

/-- C103, disagreement: `get_encoding_tableau(code=code)` returns a tableau on qubits for a code on qutrits, which
`get_encoding_tableau(code)` refuses. -/
theorem C103_keyword_disagreement (b : CircuitBodies (QCode (ZMod 3) 2) (Rows (ZMod 2) (2 + 2) × Rows (ZMod 2) (2 + 2)) G R)
    (hord : b.order = fun _ => 3) (htab : b.tableau = QCode.tableauBody (primeInts 3)) :
    b.getEncodingTableau ⟨[.code qutritZ], []⟩ = .error "ValueError" ∧
    b.getEncodingTableau ⟨[], [("code", .code qutritZ)]⟩ =
      .ok ([![0, 1, 0, 1], ![1, 0, 0, 0]], [![0, 0, 0, 1], ![0, 0, 1, 0]]) := by
  constructor
  · exact (C103_positional b false (c := qutritZ) (by rw [hord]; decide) [] []).1
  · unfold CircuitBodies.getEncodingTableau
    rw [restrict_pass _ (by simp)]
    have hbody : qutritZ.tableauAny (primeInts 3) =
        some ([![0, 1, 0, 1], ![1, 0, 0, 0]], [![0, 0, 0, 1], ![0, 0, 1, 0]]) := by decide +kernel
    have hcode : Call.theCode (⟨[], [("code", .code qutritZ)]⟩ : Call (QCode (ZMod 3) 2)) = .ok qutritZ := by
      simp [Call.theCode]
    rw [hcode, htab]
    simp only [Except.bind, QCode.tableauBody, hbody]

/-! ### The hypotheses can be met -/

/-- Trivial computations on codes that are given by their orders. -/
def sampleBodies : CircuitBodies ℕ ℕ ℕ ℕ where
  order := id
  dimension _ := 1
  tableau c := .ok (c + 10)
  toCircuit := id
  inverse := id
  deformed c := .ok c
  logical _ t := .ok t.1
  group c := .ok (c + 20)
  ops _ g := .ok g
  targets _ := .ok ()
  search _ g := .ok (g + 1)

example : sampleBodies.getTransversalOps ⟨[.code 3, .other], []⟩ = .error "ValueError" :=
  (C103_positional sampleBodies false (c := 3) (by decide) [.other] []).2.2.2.2.2.1
example : sampleBodies.getEncodingCircuit ⟨[], [("code", .code 3)]⟩ = .error "ValueError" :=
  (C103_keyword_partial sampleBodies false (c := 3) (by decide) []).1
example : sampleBodies.getTransversalCircuits ⟨[], [("code", .code 2)]⟩ = .ok 23 :=
  (C103_qubits sampleBodies (c := 2) rfl (fun c' h => by cases h; rfl) _ (Or.inr rfl)).2.2.2.2.2.2.1 (by decide)
example : (QCode.ofMatrix [![1, 1, 0, 0], ![0, 0, 1, 1]] : QCode (ZMod 2) 2).tableauAny (primeInts 2) =
    some ([![0, 0, 1, 0], ![0, 1, 0, 0]], [![1, 1, 0, 0], ![0, 0, 1, 1]]) := by decide +kernel

#print axioms C103_positional
#print axioms C103_keyword_partial
#print axioms C103_qubits
#print axioms C103_no_logical_qubits_disagreement
#print axioms C103_letters
#print axioms C103_keyword_disagreement

/-! ### Instances of the theorems: concrete cases meet the hypotheses -/

example := C103_letters (primeInts 2) rfl rfl (QCode.ofMatrix ([Fin.append ![1, 0] ![0, 1], Fin.append ![0, 1] ![1, 0]] : Rows (ZMod 2) (2 + 2)) (some false))

end QLDPC.Props
