import Verif.Model.CodeObjects
import Verif.Model.Qudit
import Mathlib.Algebra.Field.ZMod
import Mathlib.Tactic.NormNum
import Mathlib.Tactic.Tauto

/-!
# C96: codes made from codes, and equality of codes
-/

namespace QLDPC.Props

open QLDPC

variable {Φ C : Type} [DecidableEq Φ] [DecidableEq C]

/-- The class hierarchy is one of python: `issubclass` is a partial order, kinds are inherited, and
the subclasses of `QuditCode` are the quantum codes. -/
structure GoodClasses (H : Classes C) : Prop where
  refl : ∀ c, H.sub c c = true
  trans : ∀ a b c, H.sub a b = true → H.sub b c = true → H.sub a c = true
  antisymm : ∀ a b, H.sub a b = true → H.sub b a = true → a = b
  classical : ∀ c, H.kind c = .classical ↔ H.sub c H.ClassicalCode = true
  quantum : ∀ c, (H.kind c = .qudit ∨ H.kind c = .css) ↔ H.sub c H.QuditCode = true
  css : ∀ c, H.kind c = .css ↔ H.sub c H.CSSCode = true

/-- The attributes that a code of its class has: a parity check matrix, or the two subcodes. -/
def GoodObj (H : Classes C) (o : CodeObj Φ C) : Prop :=
  if H.kind o.cls = .css then o.codes?.isSome = true ∧ o.matrix? = none else o.matrix?.isSome = true

/-! ## Equality -/

theorem kind_css_of_sub {H : Classes C} (hH : GoodClasses H) {c d : C} (h : H.sub c d = true)
    (hd : H.kind d = .css) : H.kind c = .css :=
  (hH.css c).2 (hH.trans _ _ _ h ((hH.css d).1 hd))

theorem kind_classical_of_sub {H : Classes C} (hH : GoodClasses H) {c d : C} (h : H.sub c d = true)
    (hd : H.kind d = .classical) : H.kind c = .classical :=
  (hH.classical c).2 (hH.trans _ _ _ h ((hH.classical d).1 hd))

theorem kind_quantum_of_sub {H : Classes C} (hH : GoodClasses H) {c d : C} (h : H.sub c d = true)
    (hd : H.kind d ≠ .classical) : H.kind c ≠ .classical := by
  have hq : H.kind d = .qudit ∨ H.kind d = .css := by
    cases hk : H.kind d <;> simp_all
  have := (hH.quantum c).2 (hH.trans _ _ _ h ((hH.quantum d).1 hq))
  intro hc
  rw [hc] at this
  rcases this with h | h <;> cases h

/-- **C96**: two classical codes are equal if and only if they have the same field and the same
parity check matrix, of whatever classes they are. -/
theorem C96_eq_classical {H : Classes C} (a b : CodeObj Φ C) (ha : H.kind a.cls = .classical)
    (hb : H.kind b.cls = .classical) :
    a.pyEq H b = true ↔ a.field = b.field ∧ a.matrix? = b.matrix? := by
  unfold CodeObj.pyEq
  split
  · simp only [CodeObj.eqMethod, CodeObj.matrix, ha, hb]
    simp only [Bool.and_eq_true, decide_eq_true_eq, decide_true, true_and, Bool.true_or, Bool.or_true]
    exact ⟨fun h => ⟨h.1.symm, h.2.symm⟩, fun h => ⟨h.1.symm, h.2.symm⟩⟩
  · simp only [CodeObj.eqMethod, CodeObj.matrix, ha, hb]
    simp

/-- **C96**: the same for two quantum codes neither of which is a CSS code. -/
theorem C96_eq_qudit {H : Classes C} (a b : CodeObj Φ C) (ha : H.kind a.cls = .qudit)
    (hb : H.kind b.cls = .qudit) :
    a.pyEq H b = true ↔ a.field = b.field ∧ a.matrix? = b.matrix? := by
  unfold CodeObj.pyEq
  split
  · simp only [CodeObj.eqMethod, CodeObj.matrix, ha, hb]
    simp only [Bool.and_eq_true, decide_eq_true_eq, decide_true, true_and, Bool.true_or, Bool.or_true]
    exact ⟨fun h => ⟨h.1.symm, h.2.symm⟩, fun h => ⟨h.1.symm, h.2.symm⟩⟩
  · simp only [CodeObj.eqMethod, CodeObj.matrix, ha, hb]
    simp

/-- **C96**: two CSS codes are equal if and only if they are of the same class and have the same field
and the same subcodes. -/
theorem C96_eq_css {H : Classes C} (hH : GoodClasses H) (a b : CodeObj Φ C)
    (ha : H.kind a.cls = .css) (hb : H.kind b.cls = .css) :
    a.pyEq H b = true ↔ a.cls = b.cls ∧ a.field = b.field ∧ a.codes? = b.codes? := by
  have hcodes : ∀ x y : Option (Arr × Arr),
      (x.map Prod.fst = y.map Prod.fst ∧ x.map Prod.snd = y.map Prod.snd) ↔ x = y := by
    intro x y
    cases x <;> cases y <;> simp [Prod.ext_iff]
  unfold CodeObj.pyEq
  split
  · rename_i h
    simp only [CodeObj.eqMethod, ha, hb]
    constructor
    · intro h'
      simp only [Bool.and_eq_true, decide_eq_true_eq] at h'
      exact absurd (hH.antisymm _ _ h.2 h'.1.1.1) h.1
    · rintro ⟨h', _⟩
      exact absurd h'.symm h.1
  · rename_i h
    simp only [CodeObj.eqMethod, ha]
    simp only [Bool.and_eq_true, decide_eq_true_eq, and_assoc, hcodes]
    constructor
    · rintro ⟨h1, h2, h3⟩
      refine ⟨?_, h2, h3⟩
      by_contra hne
      exact h ⟨fun e => hne e.symm, h1⟩
    · rintro ⟨h1, h2, h3⟩
      exact ⟨by rw [h1]; exact hH.refl _, h2, h3⟩

/-- **C96**: a classical code is never equal to a quantum code. -/
theorem C96_eq_classical_quantum {H : Classes C} (hH : GoodClasses H) (a b : CodeObj Φ C)
    (ha : H.kind a.cls = .classical) (hb : H.kind b.cls ≠ .classical) :
    a.pyEq H b = false ∧ b.pyEq H a = false := by
  have hab : H.sub b.cls a.cls ≠ true := fun h => hb (kind_classical_of_sub hH h ha)
  have hba : H.sub a.cls b.cls ≠ true := fun h => kind_quantum_of_sub hH h hb ha
  constructor
  · unfold CodeObj.pyEq
    rw [if_neg (fun h => hab h.2)]
    simp [CodeObj.eqMethod, ha, hb]
  · unfold CodeObj.pyEq
    rw [if_neg (fun h => hba h.2)]
    cases hk : H.kind b.cls with
    | classical => exact absurd hk hb
    | qudit => simp [CodeObj.eqMethod, hk, ha]
    | css =>
      have : H.sub a.cls b.cls = false := by simpa using hba
      simp [CodeObj.eqMethod, hk, this]

/-- **C96**: a CSS code on the left is never equal to a quantum code that is no `CSSCode`, not even
to `QuditCode(code.matrix)`; the other way round it depends on the class of the other code. -/
theorem C96_eq_mixed {H : Classes C} (hH : GoodClasses H) (a b : CodeObj Φ C)
    (ha : H.kind a.cls = .css) (hb : H.kind b.cls = .qudit) :
    a.pyEq H b = false ∧
      (b.pyEq H a = true ↔ H.sub a.cls b.cls = false ∧ b.field = a.field ∧
        b.matrix? = a.codes?.map fun p => cssArray p.1 p.2) := by
  have hba : H.sub b.cls a.cls = false := by
    by_contra h
    have := kind_css_of_sub hH (by simpa using h) ha
    rw [hb] at this; cases this
  constructor
  · unfold CodeObj.pyEq
    rw [if_neg (by simp [hba])]
    simp [CodeObj.eqMethod, ha, hba]
  · have hne : a.cls ≠ b.cls := by
      intro h; rw [h, hb] at ha; cases ha
    unfold CodeObj.pyEq
    by_cases hs : H.sub a.cls b.cls = true
    · rw [if_pos ⟨hne, hs⟩]
      simp [CodeObj.eqMethod, ha, hba, hs]
    · rw [if_neg (fun h => hs h.2)]
      simp only [CodeObj.eqMethod, CodeObj.matrix, ha, hb]
      simp at hs
      simp [hs]

/-- **C96**: every code is equal to itself. -/
theorem C96_refl {H : Classes C} (hH : GoodClasses H) (a : CodeObj Φ C) : a.pyEq H a = true := by
  cases hk : H.kind a.cls with
  | classical => exact (C96_eq_classical a a hk hk).2 ⟨rfl, rfl⟩
  | qudit => exact (C96_eq_qudit a a hk hk).2 ⟨rfl, rfl⟩
  | css => exact (C96_eq_css hH a a hk hk).2 ⟨rfl, rfl, rfl⟩

/-- **C96**: equality is symmetric, if all quantum codes are CSS codes, or of class `QuditCode`
itself, or not of CSS form (as `FiveQubitCode`, the only other class in the library). -/
theorem C96_symm {H : Classes C} (hH : GoodClasses H) (a b : CodeObj Φ C)
    (h : ∀ c ∈ [a, b], ∀ d ∈ [a, b], H.kind c.cls = .qudit → H.kind d.cls = .css →
      c.cls ≠ H.QuditCode → c.matrix? ≠ d.codes?.map fun p => cssArray p.1 p.2) :
    a.pyEq H b = b.pyEq H a := by
  have mixed : ∀ a b : CodeObj Φ C, H.kind a.cls = .css → H.kind b.cls = .qudit →
      (b.cls ≠ H.QuditCode → b.matrix? ≠ a.codes?.map fun p => cssArray p.1 p.2) →
      b.pyEq H a = false := by
    intro a b ha hb hm
    by_contra hne
    obtain ⟨h1, _, h3⟩ := (C96_eq_mixed hH a b ha hb).2.1 (by simpa using hne)
    by_cases hc : b.cls = H.QuditCode
    · rw [hc, (hH.quantum _).1 (Or.inr ha)] at h1; cases h1
    · exact hm hc h3
  have ha' : a ∈ [a, b] := by simp
  have hb' : b ∈ [a, b] := by simp
  cases hka : H.kind a.cls with
  | classical =>
    cases hkb : H.kind b.cls with
    | classical =>
      rw [Bool.eq_iff_iff, C96_eq_classical a b hka hkb, C96_eq_classical b a hkb hka]
      simp [eq_comm]
    | qudit =>
      obtain ⟨h1, h2⟩ := C96_eq_classical_quantum hH a b hka (by rw [hkb]; simp)
      rw [h1, h2]
    | css =>
      obtain ⟨h1, h2⟩ := C96_eq_classical_quantum hH a b hka (by rw [hkb]; simp)
      rw [h1, h2]
  | qudit =>
    cases hkb : H.kind b.cls with
    | classical =>
      obtain ⟨h1, h2⟩ := C96_eq_classical_quantum hH b a hkb (by rw [hka]; simp)
      rw [h1, h2]
    | qudit =>
      rw [Bool.eq_iff_iff, C96_eq_qudit a b hka hkb, C96_eq_qudit b a hkb hka]
      simp [eq_comm]
    | css =>
      rw [(C96_eq_mixed hH b a hkb hka).1, mixed b a hkb hka (h a ha' b hb' hka hkb)]
  | css =>
    cases hkb : H.kind b.cls with
    | classical =>
      obtain ⟨h1, h2⟩ := C96_eq_classical_quantum hH b a hkb (by rw [hka]; simp)
      rw [h1, h2]
    | qudit =>
      rw [(C96_eq_mixed hH a b hka hkb).1, mixed a b hka hkb (h b hb' a ha' hkb hka)]
    | css =>
      rw [Bool.eq_iff_iff, C96_eq_css hH a b hka hkb, C96_eq_css hH b a hkb hka]
      simp [eq_comm]

/-- **C96**: equal codes have the same field and the same parity check matrix, also across classes,
and both are classical or both are quantum. -/
theorem C96_sound {H : Classes C} (hH : GoodClasses H) (a b : CodeObj Φ C) (h : a.pyEq H b = true) :
    a.field = b.field ∧ a.matrix H = b.matrix H ∧
      (H.kind a.cls = .classical ↔ H.kind b.cls = .classical) := by
  by_cases ha : H.kind a.cls = .classical
  · by_cases hb : H.kind b.cls = .classical
    · obtain ⟨h1, h2⟩ := (C96_eq_classical a b ha hb).1 h
      exact ⟨h1, by simp [CodeObj.matrix, ha, hb, h2], by simp [ha, hb]⟩
    · rw [(C96_eq_classical_quantum hH a b ha hb).1] at h; cases h
  · by_cases hb : H.kind b.cls = .classical
    · rw [(C96_eq_classical_quantum hH b a hb ha).2] at h; cases h
    · refine ⟨?_, ?_, by simp [ha, hb]⟩
      all_goals
        cases hka : H.kind a.cls with
        | classical => exact absurd hka ha
        | qudit =>
          cases hkb : H.kind b.cls with
          | classical => exact absurd hkb hb
          | qudit =>
            obtain ⟨h1, h2⟩ := (C96_eq_qudit a b hka hkb).1 h
            first | exact h1 | simp [CodeObj.matrix, hka, hkb, h2]
          | css =>
            obtain ⟨_, h1, h2⟩ := (C96_eq_mixed hH b a hkb hka).2.1 h
            first | exact h1 | simp [CodeObj.matrix, hka, hkb, h2]
        | css =>
          cases hkb : H.kind b.cls with
          | classical => exact absurd hkb hb
          | qudit => rw [(C96_eq_mixed hH a b hka hkb).1] at h; cases h
          | css =>
            obtain ⟨_, h1, h2⟩ := (C96_eq_css hH a b hka hkb).1 h
            first | exact h1 | simp [CodeObj.matrix, hka, hkb, h2]

/-- Classes for the examples: the three classes of `common.py`, `HGPCode`, and a subclass of
`QuditCode` written by a user. -/
inductive ExampleClass where
  | classical
  | qudit
  | css
  | hgp
  | user
  deriving DecidableEq

/-- `issubclass` for the examples. -/
def exampleSub : ExampleClass → ExampleClass → Bool
  | .css, .qudit => true
  | .hgp, .qudit => true
  | .hgp, .css => true
  | .user, .qudit => true
  | a, b => a = b

def exampleClasses : Classes ExampleClass where
  kind
    | .classical => .classical
    | .qudit => .qudit
    | .user => .qudit
    | .css => .css
    | .hgp => .css
  sub := exampleSub
  ClassicalCode := .classical
  QuditCode := .qudit
  CSSCode := .css

theorem exampleClasses_good : GoodClasses exampleClasses where
  refl c := by cases c <;> rfl
  trans a b c := by cases a <;> cases b <;> cases c <;> decide
  antisymm a b := by cases a <;> cases b <;> decide
  classical c := by cases c <;> decide
  quantum c := by cases c <;> decide
  css c := by cases c <;> decide

/-- The field with two elements and nothing else. -/
def exampleFields : Fields (Fin 1) where
  order _ := 2
  gf q := if q = 2 then some 0 else none

/-- **C96**, disagreement: with a subclass of `QuditCode` that is no `CSSCode`, `==` is not symmetric
and not transitive: a code of that class may be equal to a CSS code that is not equal to it. -/
theorem C96_symm_disagreement : ∃ a b c : CodeObj (Fin 1) ExampleClass,
    GoodObj exampleClasses a ∧ GoodObj exampleClasses b ∧ GoodObj exampleClasses c ∧
    a.pyEq exampleClasses b = true ∧ b.pyEq exampleClasses a = false ∧
    c.pyEq exampleClasses a = true ∧ c.pyEq exampleClasses b = false := by
  let M : Arr := ⟨2, 4, [[1, 1, 0, 0], [0, 0, 1, 1]]⟩
  refine ⟨{ cls := .user, field := 0, matrix? := some M },
    { cls := .css, field := 0, codes? := some (⟨1, 2, [[1, 1]]⟩, ⟨1, 2, [[1, 1]]⟩) },
    { cls := .qudit, field := 0, matrix? := some M }, ?_, ?_, ?_, ?_, ?_, ?_, ?_⟩
  · simp [GoodObj, exampleClasses]
  · simp [GoodObj, exampleClasses]
  · simp [GoodObj, exampleClasses]
  all_goals decide +kernel

/-- **C96**, disagreement: the same code as an `HGPCode`, a `CSSCode` and a `QuditCode`, with the same
field and the same parity checks, are three different codes. -/
theorem C96_class_disagreement : ∃ a b c : CodeObj (Fin 1) ExampleClass,
    a.field = b.field ∧ a.codes? = b.codes? ∧ b.field = c.field ∧
    b.matrix exampleClasses = c.matrix exampleClasses ∧
    a.pyEq exampleClasses b = false ∧ b.pyEq exampleClasses a = false ∧
    b.pyEq exampleClasses c = false ∧ c.pyEq exampleClasses b = false := by
  refine ⟨{ cls := .hgp, field := 0, codes? := some (⟨1, 2, [[1, 1]]⟩, ⟨1, 2, [[1, 1]]⟩) },
    { cls := .css, field := 0, codes? := some (⟨1, 2, [[1, 1]]⟩, ⟨1, 2, [[1, 1]]⟩) },
    { cls := .qudit, field := 0, matrix? := some ⟨2, 4, [[1, 1, 0, 0], [0, 0, 1, 1]]⟩ },
    rfl, rfl, rfl, ?_, ?_, ?_, ?_, ?_⟩ <;> decide +kernel

/-! ## Constructors -/

/-- **C96**: `ClassicalCode(code)` of a classical code has the same field, matrix, generator,
dimension and distance; it is equal to the code it was made from.  A `field` argument must be the
order of the field of the code, otherwise `ValueError`. -/
theorem C96_copy_classical {H : Classes C} (fs : Fields Φ) (cls : C) (hcls : H.kind cls = .classical)
    (o : CodeObj Φ C) (hk : H.kind o.cls = .classical) (ho : GoodObj H o) (field : Option ℕ) :
    if field = none ∨ field = some (fs.order o.field) then
      ∃ c, classicalInit H fs cls (.code o) field = .ok c ∧ c.cls = cls ∧ c.field = o.field ∧
        c.matrix H = o.matrix H ∧ c.gen? = o.gen? ∧ c.dim? = o.dim? ∧ c.dist? = o.dist? ∧
        c.pyEq H o = true ∧ o.pyEq H c = true
    else ∃ e, classicalInit H fs cls (.code o) field = .error e ∧ e.startsWith "ValueError" = true := by
  unfold GoodObj at ho
  rw [hk] at ho
  simp only [reduceCtorEq, if_false] at ho
  obtain ⟨M, hM⟩ := Option.isSome_iff_exists.1 ho
  split
  · rename_i hf
    have hcond : ¬ (field.isSome = true ∧ field ≠ some (fs.order o.field)) := by
      rcases hf with rfl | rfl <;> simp
    have hok : classicalInit H fs cls (.code o) field = .ok {
          cls := cls,
          field := o.field,
          matrix? := some M,
          dim? := o.dim?,
          dist? := o.dist?,
          gen? := o.gen? } := by
      simp only [classicalInit, abstractInit, hM, if_neg hcond, hk, if_true]
      rfl
    refine ⟨_, hok, rfl, rfl, ?_, rfl, rfl, rfl, ?_, ?_⟩
    · simp [CodeObj.matrix, hcls, hk, hM]
    · exact (C96_eq_classical _ _ hcls hk).2 ⟨rfl, hM.symm⟩
    · exact (C96_eq_classical _ _ hk hcls).2 ⟨rfl, hM⟩
  · rename_i hf
    have hcond : field.isSome = true ∧ field ≠ some (fs.order o.field) := by
      refine ⟨?_, fun h => hf (Or.inr h)⟩
      cases field with
      | none => exact absurd (Or.inl rfl) hf
      | some q => rfl
    refine ⟨"ValueError: Field argument is inconsistent with the given code", ?_, by decide +kernel⟩
    simp only [classicalInit, abstractInit, hM, if_pos hcond]
    rfl

/-- **C96**: the same for `QuditCode(code)` of a quantum code that is no CSS code, which also keeps
its stabilizers, gauge operators, logical operators and whether it is a subsystem code. -/
theorem C96_copy_qudit {H : Classes C} (fs : Fields Φ) (nc : Φ → Arr → Bool) (cls : C)
    (hcls : H.kind cls = .qudit) (o : CodeObj Φ C) (hk : H.kind o.cls = .qudit) (ho : GoodObj H o)
    (field : Option ℕ) (hf : field = none ∨ field = some (fs.order o.field))
    (isSub : Option Bool) :
    if isSub = none ∨ isSub = some o.isSub then
      ∃ c, quditInit H fs nc cls (.code o) field isSub = .ok c ∧ c.cls = cls ∧ c.field = o.field ∧
        c.matrix H = o.matrix H ∧ c.dim? = o.dim? ∧ c.dist? = o.dist? ∧
        c.stabilizers? = o.stabilizers? ∧ c.gauges? = o.gauges? ∧ c.logicals? = o.logicals? ∧
        c.isSub = o.isSub ∧ c.pyEq H o = true ∧ o.pyEq H c = true
    else quditInit H fs nc cls (.code o) field isSub = .error "AssertionError" := by
  unfold GoodObj at ho
  rw [hk] at ho
  simp only [reduceCtorEq, if_false] at ho
  obtain ⟨M, hM⟩ := Option.isSome_iff_exists.1 ho
  have hcond : ¬ (field.isSome = true ∧ field ≠ some (fs.order o.field)) := by
    rcases hf with rfl | rfl <;> simp
  split
  · rename_i hs
    have hok : quditInit H fs nc cls (.code o) field isSub = .ok {
          cls := cls,
          field := o.field,
          matrix? := some M,
          dim? := o.dim?,
          dist? := o.dist?,
          stabilizers? := o.stabilizers?,
          gauges? := o.gauges?,
          logicals? := o.logicals?,
          isSub := o.isSub } := by
      simp only [quditInit, abstractInit, hM, if_neg hcond, hk, true_or, if_true, hs]
      rfl
    refine ⟨_, hok, rfl, rfl, ?_, rfl, rfl, rfl, rfl, rfl, rfl, ?_, ?_⟩
    · simp [CodeObj.matrix, hcls, hk, hM]
    · exact (C96_eq_qudit _ _ hcls hk).2 ⟨rfl, hM.symm⟩
    · exact (C96_eq_qudit _ _ hk hcls).2 ⟨rfl, hM⟩
  · rename_i hs
    simp only [quditInit, abstractInit, hM, if_neg hcond, hk, true_or, if_true, if_neg hs]
    rfl

/-- **C96**, disagreement: the constructors announce that they take any code, but no CSS code can be
made into a `QuditCode` or a `ClassicalCode` in this way: CSS codes have no attribute `_matrix`. -/
theorem C96_css_disagreement {H : Classes C} (fs : Fields Φ) (nc : Φ → Arr → Bool) (cls : C)
    (o : CodeObj Φ C) (hk : H.kind o.cls = .css) (ho : GoodObj H o) (field : Option ℕ)
    (isSub : Option Bool) :
    quditInit H fs nc cls (.code o) field isSub =
        .error "AttributeError: object has no attribute '_matrix'" ∧
      classicalInit H fs cls (.code o) field =
        .error "AttributeError: object has no attribute '_matrix'" := by
  unfold GoodObj at ho
  rw [if_pos hk] at ho
  simp only [quditInit, classicalInit, abstractInit, ho.2]
  exact ⟨rfl, rfl⟩

/-- **C96**: from integers the constructors make a code over the field of the given order, the binary
field by default; from an array of galois one over the field of that array. -/
theorem C96_fresh {H : Classes C} (fs : Fields Φ) (cls : C) (A : Arr) (φ : Φ) :
    (∀ q : ℕ, q ≠ 0 → fs.gf q = some φ → (∀ r ∈ A.entries, ∀ x ∈ r, x < q) →
        classicalInit H fs cls (.data A) (some q) =
          .ok { cls := cls, field := φ, matrix? := some A }) ∧
      (fs.gf 2 = some φ → (∀ r ∈ A.entries, ∀ x ∈ r, x < 2) →
        classicalInit H fs cls (.data A) none =
          .ok { cls := cls, field := φ, matrix? := some A }) ∧
      classicalInit H fs cls (.fieldArray φ A) none =
          .ok { cls := cls, field := φ, matrix? := some A } := by
  refine ⟨?_, ?_, rfl⟩
  · intro q hq hgf hA
    obtain ⟨q, rfl⟩ := Nat.exists_eq_succ_of_ne_zero hq
    simp only [classicalInit, abstractInit, Nat.succ_eq_add_one] at *
    rw [hgf]
    simp only
    rw [if_pos (by simpa [List.all_eq_true] using hA)]
    rfl
  · intro hgf hA
    simp only [classicalInit, abstractInit]
    rw [hgf]
    simp only
    rw [if_pos (by simpa [List.all_eq_true] using hA)]
    rfl

/-- **C96**, disagreement: a `field` that contradicts the field of an array of galois is ignored
without complaint, although the same contradiction is an error if the array comes as a code. -/
theorem C96_field_disagreement {H : Classes C} (fs : Fields Φ) (cls : C) (A : Arr) (φ : Φ)
    (hcls : H.kind cls = .classical) (q : ℕ) (hq : q ≠ fs.order φ) :
    ∃ c, classicalInit H fs cls (.fieldArray φ A) (some q) = .ok c ∧ fs.order c.field ≠ q ∧
      ∃ e, classicalInit H fs cls (.code c) (some q) = .error e ∧
        e.startsWith "ValueError" = true := by
  refine ⟨{ cls := cls, field := φ, matrix? := some A }, rfl, fun h => hq h.symm, ?_⟩
  have h := C96_copy_classical (H := H) fs cls hcls { cls := cls, field := φ, matrix? := some A } hcls
    (by simp [GoodObj, hcls]) (some q)
  rw [if_neg (by simpa using hq)] at h
  exact h

example : (3 : ℕ) ≠ exampleFields.order 0 := by decide

/-- **C96**: `CSSCode(code_x, code_z)` of two classical codes has their matrices as X- and Z-type
checks; it raises `ValueError` exactly if the codes have different lengths or different fields. -/
theorem C96_css {H : Classes C} (hH : GoodClasses H) (fs : Fields Φ)
    (nc : Φ → Arr → Arr → Bool) (cls : C) (x z : CodeObj Φ C) (hx : H.kind x.cls = .classical)
    (hz : H.kind z.cls = .classical) (X Z : Arr) (hX : x.matrix? = some X) (hZ : z.matrix? = some Z)
    (isSub : Option Bool) (promise : Bool) :
    if X.cols = Z.cols ∧ x.field = z.field then
      ∃ c, cssInit H fs nc cls (.code x) (.code z) none isSub promise = .ok c ∧ c.cls = cls ∧
        c.field = x.field ∧ c.codes? = some (X, Z) ∧
        c.isSub = isSub.getD (nc x.field X Z) ∧
        (c.equalDistance = true ↔ promise = true ∨ X = Z)
    else ∃ e, cssInit H fs nc cls (.code x) (.code z) none isSub promise = .error e ∧
      e.startsWith "ValueError" = true := by
  have hb : H.kind H.ClassicalCode = .classical := (hH.classical _).2 (hH.refl _)
  have hcx : classicalInit H fs H.ClassicalCode (.code x) none = .ok {
          cls := H.ClassicalCode,
          field := x.field,
          matrix? := some X,
          dim? := x.dim?,
          dist? := x.dist?,
          gen? := x.gen? } := by
    simp only [classicalInit, abstractInit, hX, hx, if_true]; rfl
  have hcz : classicalInit H fs H.ClassicalCode (.code z) none = .ok {
          cls := H.ClassicalCode,
          field := z.field,
          matrix? := some Z,
          dim? := z.dim?,
          dist? := z.dist?,
          gen? := z.gen? } := by
    simp only [classicalInit, abstractInit, hZ, hz, if_true]; rfl
  split
  · rename_i h
    obtain ⟨h1, h2⟩ := h
    have hn : ¬ (X.cols ≠ Z.cols ∨ x.field ≠ z.field) := by simp [h1, h2]
    unfold cssInit
    rw [hcx, hcz]
    simp only [Except.bind, bind, if_neg hn]
    refine ⟨_, rfl, rfl, rfl, rfl, rfl, ?_⟩
    simp only [Bool.or_eq_true]
    rw [C96_eq_classical _ _ hb hb]
    simp [h2]
  · rename_i h
    have hn : X.cols ≠ Z.cols ∨ x.field ≠ z.field := by
      by_contra hc
      push Not at hc
      exact h hc
    refine ⟨"ValueError: The sub-codes provided for this CSSCode are incompatible", ?_, by decide +kernel⟩
    unfold cssInit
    rw [hcx, hcz]
    simp only [Except.bind, bind, if_pos hn]

/-- **C96**: a CSS code is equal to the code of the same class made from its subcodes. -/
theorem C96_css_rebuild {H : Classes C} (hH : GoodClasses H) (fs : Fields Φ)
    (nc : Φ → Arr → Arr → Bool) (o : CodeObj Φ C) (hk : H.kind o.cls = .css) (X Z : Arr)
    (ho : o.codes? = some (X, Z)) (hlen : X.cols = Z.cols) (isSub : Option Bool) (promise : Bool) :
    ∃ c, cssInit H fs nc o.cls (.code { cls := H.ClassicalCode, field := o.field, matrix? := some X })
        (.code { cls := H.ClassicalCode, field := o.field, matrix? := some Z }) none isSub promise = .ok c ∧
      c.pyEq H o = true := by
  have hb : H.kind H.ClassicalCode = .classical := (hH.classical _).2 (hH.refl _)
  have h := C96_css hH fs nc o.cls { cls := H.ClassicalCode, field := o.field, matrix? := some X }
    { cls := H.ClassicalCode, field := o.field, matrix? := some Z } hb hb X Z rfl rfl isSub promise
  rw [if_pos ⟨hlen, rfl⟩] at h
  obtain ⟨c, h1, h2, h3, h4, _⟩ := h
  refine ⟨c, h1, (C96_eq_css hH c o (by rw [h2, hk]) hk).2 ⟨h2, h3, by rw [h4, ho]⟩⟩

/-! ## A classical code made into a quantum code -/

/-- The stabilizer code of a single `Y` on a single qubit has no logical qubits. -/
theorem exampleY_dimension :
    ({ matrix := [![1, 1]], isSub := false } : QCode (ZMod 2) 1).dimension = 0 := by
  decide +kernel

/-- **C96**, disagreement: `QuditCode(RepetitionCode(2))` has the parity check `[1, 1]`, a single `Y` on a
single qubit, hence no logical qubits.  It reports one logical qubit and distance two, because the
constructor copies what is known about the *classical* code. -/
theorem C96_stale_disagreement (nc : Fin 1 → Arr → Bool) :
    ∃ rep c : CodeObj (Fin 1) ExampleClass,
      rep.cls = .classical ∧ rep.matrix? = some ⟨1, 2, [[1, 1]]⟩ ∧ rep.dim? = some 1 ∧
      rep.dist? = some (some 2) ∧
      quditInit exampleClasses exampleFields nc .qudit (.code rep) none (some false) = .ok c ∧
      c.matrix? = some ⟨1, 2, [[1, 1]]⟩ ∧ c.isSub = false ∧ c.dim? = some 1 ∧ c.dist? = some (some 2) ∧
      ({ matrix := [![1, 1]], isSub := c.isSub, dim? := c.dim? } : QCode (ZMod 2) 1).dimension = 1 ∧
      ({ matrix := [![1, 1]], isSub := c.isSub } : QCode (ZMod 2) 1).dimension = 0 := by
  refine ⟨{
      cls := .classical,
      field := 0,
      matrix? := some ⟨1, 2, [[1, 1]]⟩,
      dim? := some 1,
      dist? := some (some 2) },
    { cls := .qudit,
      field := 0,
      matrix? := some ⟨1, 2, [[1, 1]]⟩,
      dim? := some 1,
      dist? := some (some 2) }, rfl, rfl, rfl, rfl, rfl, rfl, rfl, rfl, rfl, rfl, exampleY_dimension⟩

#print axioms C96_eq_classical
#print axioms C96_eq_qudit
#print axioms C96_eq_css
#print axioms C96_eq_classical_quantum
#print axioms C96_eq_mixed
#print axioms C96_refl
#print axioms C96_symm
#print axioms C96_sound
#print axioms C96_symm_disagreement
#print axioms C96_class_disagreement
#print axioms C96_copy_classical
#print axioms C96_copy_qudit
#print axioms C96_css_disagreement
#print axioms C96_fresh
#print axioms C96_field_disagreement
#print axioms C96_css
#print axioms C96_css_rebuild
#print axioms C96_stale_disagreement

/-! ### Instances of the theorems: concrete cases meet the hypotheses -/

example := C96_eq_classical (H := exampleClasses) ({ cls := .classical, field := 0, matrix? := some ⟨1, 2, [[1, 1]]⟩ } : CodeObj (Fin 1) _)
  { cls := .classical, field := 0, matrix? := some ⟨1, 2, [[1, 0]]⟩ } rfl rfl
example := C96_eq_qudit (H := exampleClasses) ({ cls := .user, field := 0, matrix? := some ⟨1, 2, [[1, 1]]⟩ } : CodeObj (Fin 1) _)
  { cls := .qudit, field := 0, matrix? := some ⟨1, 2, [[1, 0]]⟩ } rfl rfl
example := C96_eq_css exampleClasses_good ({ cls := .css, field := 0, codes? := some (⟨1, 2, [[1, 1]]⟩, ⟨1, 2, [[1, 1]]⟩) } : CodeObj (Fin 1) _)
  { cls := .hgp, field := 0, codes? := some (⟨1, 2, [[1, 1]]⟩, ⟨1, 2, [[1, 1]]⟩) } rfl rfl
example := C96_eq_classical_quantum exampleClasses_good
  ({ cls := .classical, field := 0, matrix? := some ⟨1, 2, [[1, 1]]⟩ } : CodeObj (Fin 1) _)
  { cls := .qudit, field := 0, matrix? := some ⟨1, 2, [[1, 1]]⟩ } rfl (by decide)
example := C96_eq_mixed exampleClasses_good ({ cls := .css, field := 0, codes? := some (⟨1, 2, [[1, 1]]⟩, ⟨1, 2, [[1, 1]]⟩) } : CodeObj (Fin 1) _)
  { cls := .user, field := 0, matrix? := some ⟨2, 4, [[1, 1, 0, 0], [0, 0, 1, 1]]⟩ } rfl rfl
example := C96_refl exampleClasses_good ({ cls := .css, field := 0, codes? := some (⟨1, 2, [[1, 1]]⟩, ⟨1, 2, [[1, 1]]⟩) } : CodeObj (Fin 1) _)
example := C96_symm exampleClasses_good ({ cls := .css, field := 0, codes? := some (⟨1, 2, [[1, 1]]⟩, ⟨1, 2, [[1, 1]]⟩) } : CodeObj (Fin 1) _)
  { cls := .hgp, field := 0, codes? := some (⟨1, 2, [[1, 1]]⟩, ⟨1, 2, [[1, 1]]⟩) } (by decide)
example := C96_sound exampleClasses_good ({ cls := .user, field := 0, matrix? := some ⟨2, 4, [[1, 1, 0, 0], [0, 0, 1, 1]]⟩ } : CodeObj (Fin 1) _)
  { cls := .css, field := 0, codes? := some (⟨1, 2, [[1, 1]]⟩, ⟨1, 2, [[1, 1]]⟩) } (by decide +kernel)
example := C96_copy_classical (H := exampleClasses) exampleFields .classical rfl
  { cls := .classical, field := 0, matrix? := some ⟨1, 2, [[1, 1]]⟩ } rfl (by simp [GoodObj, exampleClasses]) (some 2)
example := C96_copy_qudit (H := exampleClasses) exampleFields (fun _ _ => false) .qudit rfl
  { cls := .user, field := 0, matrix? := some ⟨1, 2, [[1, 1]]⟩ } rfl (by simp [GoodObj, exampleClasses]) (some 2) (Or.inr rfl) none
example := C96_css exampleClasses_good exampleFields (fun _ _ _ => false) .css
  { cls := .classical, field := 0, matrix? := some ⟨1, 2, [[1, 1]]⟩ } { cls := .classical, field := 0, matrix? := some ⟨1, 2, [[1, 1]]⟩ }
  rfl rfl _ _ rfl rfl none false
example := C96_css_rebuild exampleClasses_good exampleFields (fun _ _ _ => false)
  { cls := .hgp, field := 0, codes? := some (⟨1, 2, [[1, 1]]⟩, ⟨1, 2, [[1, 1]]⟩) } rfl _ _ rfl rfl none false

end QLDPC.Props
