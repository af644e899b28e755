import Verif.Lemmas.Idempotents
import Verif.Lemmas.GF16
import Verif.Props.Groups
import Verif.Props.Text

/-! # C87: primitive central idempotents -/

namespace QLDPC.Props

open QLDPC QLDPC.Spec

variable {F : Type} [Field F] [DecidableEq F] {n : ℕ}

/-- C87: whatever surrounds the sums that GAP prints, every sum is found, with all of its terms, and each term is read
as the three numbers `p`, `k`, `m` (left out exponents are 1) and the cycles counted from zero, where the identity is
one empty cycle. -/
theorem C87_parse {t : CharTable} (ht : t.Ok) (hc : t.digit '^' = none) (generator : ℕ → ℕ → Option ℤ)
    (toField : ℤ → Option ℤ) {text : List Char} {ms : List (List GapTerm)} (h : IsGapOutput text ms)
    (hz : ∀ es ∈ ms, ∀ e ∈ es, ((generator (e.p ^ e.k.getD 1) (e.m.getD 1)).bind toField).isSome) :
    ∃ out, parseIdempotents t generator toField text = some out ∧
      List.Forall₂ (fun es o => List.Forall₂ (fun (e : GapTerm) (v : ℤ × List (List ℤ)) =>
        (generator (e.p ^ e.k.getD 1) (e.m.getD 1)).bind toField = some v.1 ∧
          v.2 = if e.cycles = [] then [[]] else e.cycles.map fun c => c.map fun i : ℕ => (i : ℤ) - 1) es o) ms out := by
  rw [parseIdempotents_text ht hc _ _ h]
  refine ⟨ms.map fun es => es.map fun e => (((generator (e.p ^ e.k.getD 1) (e.m.getD 1)).bind toField).getD 0,
    (cycleTexts e.cycles).map fun c => c.map fun i : ℕ => (i : ℤ) - 1), ?_, ?_⟩
  · rw [mapM_some_iff, List.forall₂_map_right_iff]
    refine List.forall₂_same.2 fun es hes => ?_
    rw [mapM_some_iff, List.forall₂_map_right_iff]
    refine List.forall₂_same.2 fun e he => ?_
    obtain ⟨v, hv⟩ := Option.isSome_iff_exists.1 (hz es hes e he)
    rw [hv]
    rfl
  · rw [List.forall₂_map_right_iff]
    refine List.forall₂_same.2 fun es hes => ?_
    rw [List.forall₂_map_right_iff]
    refine List.forall₂_same.2 fun e he => ⟨?_, ?_⟩
    · obtain ⟨v, hv⟩ := Option.isSome_iff_exists.1 (hz es hes e he)
      rw [hv]
      rfl
    · simp only [cycleTexts]
      split <;> simp

/-- C87: if all coefficients are given as powers of `Z(q)` or `Z(p)`, `q` the order of the field and `p` its
characteristic, then the result consists of the elements that GAP has printed, in this order: for every permutation the
sum of its coefficients.  So they are idempotent, central, orthogonal exactly if those are. -/
theorem C87_members {t : CharTable} (ht : t.Ok) (hc : t.digit '^' = none) {fi : FieldInts F}
    (hfi : Spec.FieldInts.Ok fi) {generator : ℕ → ℕ → Option ℤ} {z : ℕ → F} {p order : ℕ} (hp : 0 < p) [CharP F p]
    (hz : GeneratorsOk fi generator p z) (ho : order % p ≠ 0) {text : List Char} {ms : List (List GapTerm)}
    (h : IsGapOutput text ms)
    (hq : ∀ es ∈ ms, ∀ e ∈ es, e.p ^ e.k.getD 1 = fi.order ∨ e.p ^ e.k.getD 1 = p)
    (hg : ∀ es ∈ ms, ∀ e ∈ es, ∃ g : Equiv.Perm (Fin n), IsGapPerm e.cycles g) :
    ∃ xs, primitiveCentralIdempotents t fi generator order p n text = some xs ∧
      List.Forall₂ (fun es x => IsGapSum z es (RMember.val x)) ms xs := by
  refine idempotents_eq ht hc hfi ho h (fun es hes e he => ?_) hg
  rcases hq es hes e he with hq | hq
  · rw [hq, hz.full, Option.bind_some, hfi.ofInt_toInt, GapTerm.coef, hq]
  · obtain ⟨w, hw, hgen⟩ := hz.prime
    rw [hq, hgen, Option.bind_some, hz.small _ (Nat.mod_lt _ hp), GapTerm.coef, hq, hw]
    congr 1
    rw [← Nat.cast_pow, CharP.cast_eq_iff_mod_eq F p, Nat.mod_mod]

/-- C87: an element of the group algebra is determined by the sum that denotes it. -/
theorem C87_unique {z : ℕ → F} {es : List GapTerm} {x y : GAlg F (Equiv.Perm (Fin n))ᵐᵒᵖ} (hx : IsGapSum z es x)
    (hy : IsGapSum z es y) : x = y := by
  obtain ⟨gs, h1, h2⟩ := hx
  obtain ⟨gs', h1', h2'⟩ := hy
  have hperm : ∀ {cycles : List (List ℕ)} {g g' : Equiv.Perm (Fin n)}, IsGapPerm cycles g → IsGapPerm cycles g' →
      g = g' := fun h h' => by
    have := (memberOfCycles_eq h).symm.trans (memberOfCycles_eq h')
    exact MulOpposite.op_injective (Option.some.inj this)
  have : gs = gs' := by
    clear h2 h2'
    induction h1 generalizing gs' with
    | nil => cases h1'; rfl
    | cons h _ ih =>
      cases h1' with
      | cons h' ht' => rw [hperm h h', ih _ ht']
  subst this
  funext h
  exact (h2 h).trans (h2' h).symm

/-- C87: in particular, `e * e == e` holds for every returned `e` if it holds for what GAP has printed, and
`d * e == 0` holds for two returned members if it holds for what GAP has printed. -/
theorem C87_idempotent {t : CharTable} (ht : t.Ok) (hc : t.digit '^' = none) {fi : FieldInts F}
    (hfi : Spec.FieldInts.Ok fi) {generator : ℕ → ℕ → Option ℤ} {z : ℕ → F} {p order : ℕ} (hp : 0 < p) [CharP F p]
    (hz : GeneratorsOk fi generator p z) (ho : order % p ≠ 0) {text : List Char} {ms : List (List GapTerm)}
    (h : IsGapOutput text ms)
    (hq : ∀ es ∈ ms, ∀ e ∈ es, e.p ^ e.k.getD 1 = fi.order ∨ e.p ^ e.k.getD 1 = p)
    (hg : ∀ es ∈ ms, ∀ e ∈ es, ∃ g : Equiv.Perm (Fin n), IsGapPerm e.cycles g)
    (elements : List (GAlg F (Equiv.Perm (Fin n))ᵐᵒᵖ)) (hel : List.Forall₂ (IsGapSum z) ms elements) :
    ∃ xs, primitiveCentralIdempotents t fi generator order p n text = some xs ∧ xs.map RMember.val = elements ∧
      (∀ x ∈ xs, x.val * x.val = x.val → (x.mul x).beq x = true) ∧
      ∀ x ∈ xs, ∀ y ∈ xs, x.val * y.val = 0 → (x.mul y).beq RMember.zero = true := by
  obtain ⟨xs, h1, h2⟩ := C87_members (n := n) ht hc hfi hp hz ho h hq hg
  have hok : ∀ x ∈ xs, x.Ok := by
    unfold primitiveCentralIdempotents at h1
    rw [if_neg ho, Option.bind_eq_some_iff] at h1
    obtain ⟨ids, -, h1⟩ := h1
    rw [mapM_some_iff] at h1
    intro x hx
    obtain ⟨e, -, he⟩ := forall₂_right h1 x hx
    obtain ⟨ts, -, rfl⟩ := Option.map_eq_some_iff.1 he
    exact RMember.ok_ofTerms _
  refine ⟨xs, h1, ?_, fun x hx hxx => ?_, fun x hx y hy hxy => ?_⟩
  · clear h1 hok h hq hg
    induction h2 generalizing elements with
    | nil => cases hel; rfl
    | cons h _ ih =>
      cases hel with
      | cons h' ht' => rw [List.map_cons, ih _ ht', C87_unique h h']
  · exact (C37_equality _ _ (RMember.ok_mul x x)).1.2 ((C37_operations (hok x hx) (hok x hx)).2.2.2.1.trans hxx)
  · refine (C37_equality _ _ (RMember.ok_mul x y)).1.2 ?_
    rw [(C37_operations (hok x hx) (hok y hy)).2.2.2.1, hxy, (C37_operations (hok x hx) (hok y hy)).2.2.2.2.1]

/-- C87: a group algebra whose characteristic divides the order of the group is refused. -/
theorem C87_semisimple (t : CharTable) (fi : FieldInts F) (generator : ℕ → ℕ → Option ℤ) (order p : ℕ) (h : p ∣ order)
    (text : List Char) : primitiveCentralIdempotents t fi generator order p n text = none :=
  if_pos (Nat.mod_eq_zero_of_dvd h)

/-! ### The field with 16 elements -/

/-- The integers of the field with 16 elements. -/
def gf16Ints : FieldInts GF16 where
  order := 16
  toInt x := x.bits.val
  ofInt v := if h : 0 ≤ v ∧ v.toNat < 16 then some ⟨⟨v.toNat, h.2⟩⟩ else none

theorem gf16Ints_ok : Spec.FieldInts.Ok gf16Ints where
  ofInt_toInt x := by simp [gf16Ints]
  toInt_ofInt v x h := by
    simp only [gf16Ints] at h ⊢
    split at h
    · rename_i hv
      obtain rfl := Option.some.inj h
      simp [hv.1]
    · cases h
  nonneg x := by simp [gf16Ints]
  zero := rfl
  one := rfl
  two h := by simp [gf16Ints] at h

/-- `Z(2)`, `Z(4)`, `Z(16)` in the field with 16 elements: `x^15`, `x^5`, `x`. -/
def gf16Z (q : ℕ) : GF16 := if q = 16 then ⟨2⟩ else if q = 4 then ⟨2⟩ ^ 5 else 1

/-- The integers of the powers of the primitive elements of `galois.GF(2)`, `galois.GF(4)`, `galois.GF(16)`; in the
field with four elements `x^2 = x + 1`. -/
def gf16Generator (q m : ℕ) : Option ℤ :=
  if q = 2 then some 1
  else if q = 4 then [1, 2, 3][m % 3]?
  else if q = 16 then some (gf16Ints.toInt (⟨2⟩ ^ m)) else none

theorem gf16_ok : GeneratorsOk gf16Ints gf16Generator 2 gf16Z where
  full m := by simp [gf16Generator, gf16Z, gf16Ints]
  prime := ⟨1, by simp [gf16Z], fun m => by simp [gf16Generator]⟩
  small k hk := by
    interval_cases k
    · decide
    · simp only [Nat.cast_one]; decide

/-- An idempotent of the cyclic group of order 3 over the field with 16 elements, with `w = Z(2^2)`. -/
def omegaSum : List GapTerm :=
  [⟨2, none, some 0, []⟩, ⟨2, some 2, none, [[1, 2, 3]]⟩, ⟨2, some 2, some 2, [[1, 3, 2]]⟩]

/-- What GAP prints for it. -/
def omegaText : List Char := "[ (Z(2)^0)*()+(Z(2^2))*(1,2,3)+(Z(2^2)^2)*(1,3,2) ]".toList

theorem omega_output : IsGapOutput omegaText [omegaSum] := by
  have h : IsGapOutput ("[ ".toList ++ sumText omegaSum ++ " ]".toList) [omegaSum] :=
    .cons (by decide) (by simp [omegaSum]) (.nil (by decide)) (by simp)
  have e : omegaText = "[ ".toList ++ sumText omegaSum ++ " ]".toList := by decide +kernel
  exact e ▸ h

/-- Whether the only returned member is idempotent. -/
def singleIdempotent (o : Option (List (RMember GF16 (SymGroup 3)))) : Bool :=
  match o with
  | some [r] => (r.mul r).beq r
  | _ => true

theorem singleIdempotent_false {o : Option (List (RMember GF16 (SymGroup 3)))} (h : singleIdempotent o = false) :
    ∃ r, o = some [r] ∧ (r.mul r).beq r = false := by
  unfold singleIdempotent at h
  split at h
  · exact ⟨_, rfl, h⟩
  · cases h

theorem omega_returned : ∃ r, primitiveCentralIdempotents asciiTable gf16Ints gf16Generator 3 2 3 omegaText = some [r] ∧
    (r.mul r).beq r = false := singleIdempotent_false (by decide +kernel)

/-- C87, disagreement: GAP prints an element of a subfield as a power of the generator of the subfield, and the code
reads the integer of an element of the subfield as an element of the field.  Over the field with 16 elements `Z(2^2)` is
not read as an element of order 3, and what is returned for an idempotent of the cyclic group of order 3 is not
idempotent. -/
theorem C87_subfield_disagreement :
    IsGapOutput omegaText [omegaSum] ∧ GeneratorsOk gf16Ints gf16Generator 2 gf16Z ∧
      (∃ x : GAlg GF16 (Equiv.Perm (Fin 3))ᵐᵒᵖ, IsGapSum gf16Z omegaSum x ∧ x * x = x) ∧
      ∃ r, primitiveCentralIdempotents asciiTable gf16Ints gf16Generator 3 2 3 omegaText = some [r] ∧
        (r.mul r).beq r = false := by
  refine ⟨omega_output, gf16_ok, ?_, ?_⟩
  · obtain ⟨g₁, hg₁⟩ := exists_gapPerm (n := 3) (cycles := [[1, 2, 3]]) (by decide) (by decide) (by decide)
    obtain ⟨g₂, hg₂⟩ := exists_gapPerm (n := 3) (cycles := [[1, 3, 2]]) (by decide) (by decide) (by decide)
    obtain ⟨g₀, hg₀⟩ := exists_gapPerm (n := 3) (cycles := []) (by decide) (by decide) (by decide)
    let r : RMember GF16 (SymGroup 3) := RMember.ofTerms [(gf16Z 2 ^ 0, 1),
      (gf16Z 4, MulOpposite.op ([0, 1, 2] : List (Fin 3)).formPerm),
      (gf16Z 4 ^ 2, MulOpposite.op ([0, 2, 1] : List (Fin 3)).formPerm)]
    have e₀ : MulOpposite.op g₀ = 1 := by
      have h := memberOfCycles_eq hg₀
      exact (Option.some.inj h).symm
    have e₁ : MulOpposite.op g₁ = MulOpposite.op ([0, 1, 2] : List (Fin 3)).formPerm := by
      have h := memberOfCycles_eq hg₁
      have h' : memberOfCycles 3 ([[1, 2, 3]].map fun c => c.map fun i : ℕ => (i : ℤ) - 1) =
        some (MulOpposite.op ([0, 1, 2] : List (Fin 3)).formPerm) := by decide +kernel
      exact Option.some.inj (h.symm.trans h')
    have e₂ : MulOpposite.op g₂ = MulOpposite.op ([0, 2, 1] : List (Fin 3)).formPerm := by
      have h := memberOfCycles_eq hg₂
      have h' : memberOfCycles 3 ([[1, 3, 2]].map fun c => c.map fun i : ℕ => (i : ℤ) - 1) =
        some (MulOpposite.op ([0, 2, 1] : List (Fin 3)).formPerm) := by decide +kernel
      exact Option.some.inj (h.symm.trans h')
    refine ⟨r.val, ⟨[g₀, g₁, g₂], ?_, fun h => ?_⟩, ?_⟩
    · exact .cons hg₀ (.cons hg₁ (.cons hg₂ .nil))
    · have : r.val.coef h = RMember.get r h := rfl
      rw [this, RMember.get_ofTerms]
      simp [omegaSum, GapTerm.coef, e₀, e₁, e₂]
    · have h1 : (r.mul r).beq r = true := by decide +kernel
      have hok : r.Ok := RMember.ok_ofTerms _
      clear_value r
      exact (C37_operations hok hok).2.2.2.1.symm.trans ((C37_equality _ _ (RMember.ok_mul r r)).1.1 h1)
  · exact omega_returned

/-- Two idempotents of the cyclic group of order 5 over the field with 16 elements. -/
def fifthText : List Char :=
  ("[ (Z(2)^0)*()+(Z(2)^0)*(1,2,3,4,5)+(Z(2)^0)*(1,3,5,2,4)+(Z(2)^0)*(1,4,2,5,3)+(Z(2)^0)*(1,5,4,3,2), " ++
    "(Z(2)^0)*()+(Z(2^4)^3)*(1,2,3,4,5)+(Z(2^4)^6)*(1,3,5,2,4)+(Z(2^4)^9)*(1,4,2,5,3)+(Z(2^4)^12)*(1,5,4,3,2) ]").toList

/-- The terms of these idempotents. -/
def fifthSums : List (List GapTerm) :=
  let cycles := [[], [[1, 2, 3, 4, 5]], [[1, 3, 5, 2, 4]], [[1, 4, 2, 5, 3]], [[1, 5, 4, 3, 2]]]
  [cycles.map fun c => ⟨2, none, some 0, c⟩,
    (cycles.zip [(none, 0), (some 4, 3), (some 4, 6), (some 4, 9), (some 4, 12)]).map fun e =>
      ⟨2, e.2.1, some e.2.2, e.1⟩]

theorem fifth_output : IsGapOutput fifthText fifthSums := by
  have h : IsGapOutput ("[ ".toList ++ sumText (fifthSums.getD 0 []) ++
      (", ".toList ++ sumText (fifthSums.getD 1 []) ++ " ]".toList)) [fifthSums.getD 0 [], fifthSums.getD 1 []] :=
    .cons (by decide) (by simp [fifthSums]) (.cons (by decide) (by simp [fifthSums]) (.nil (by decide)) (by simp))
      (by simp)
  have e : fifthText = "[ ".toList ++ sumText (fifthSums.getD 0 []) ++
      (", ".toList ++ sumText (fifthSums.getD 1 []) ++ " ]".toList) := by decide +kernel
  exact e ▸ h

example : ∃ xs, primitiveCentralIdempotents asciiTable gf16Ints gf16Generator 5 2 5 fifthText = some xs ∧
    List.Forall₂ (fun es x => IsGapSum gf16Z es (RMember.val x)) fifthSums xs :=
  C87_members asciiTable_ok (by decide) gf16Ints_ok (by decide) gf16_ok (by decide) fifth_output
    (by intro es hes e he; simp [fifthSums] at hes; rcases hes with rfl | rfl <;> simp at he <;>
      rcases he with rfl | rfl | rfl | rfl | rfl <;> simp [gf16Ints])
    (by intro es hes e he; simp [fifthSums] at hes; rcases hes with rfl | rfl <;> simp at he <;>
      rcases he with rfl | rfl | rfl | rfl | rfl <;> exact exists_gapPerm (by decide) (by decide) (by decide))

example : (primitiveCentralIdempotents asciiTable gf16Ints gf16Generator 5 2 5 fifthText).map (fun xs =>
    xs.map fun x => (x.length, (x.mul x).beq x)) = some [(5, true), (5, true)] := by decide +kernel

example : parseIdempotents asciiTable gf16Generator some "[ (Z(2))*(), (Z(2^2)^2)*(1,2)+(Z(2)^0)*(3,4)(5,6) ]".toList =
    some [[(1, [[]])], [(3, [[0, 1]]), (1, [[2, 3], [4, 5]])]] := by decide +kernel

/-! ### Instances of the theorems: concrete cases meet the hypotheses -/

example := C87_semisimple (F := ZMod 2) (n := 4) asciiTable (primeInts 2) gf16Generator 4 2 (by decide) fifthText
private theorem fifth_sizes : ∀ es ∈ fifthSums, ∀ e ∈ es, e.p ^ e.k.getD 1 = gf16Ints.order ∨ e.p ^ e.k.getD 1 = 2 := by
  intro es hes e he; simp [fifthSums] at hes; rcases hes with rfl | rfl <;> simp at he <;>
      rcases he with rfl | rfl | rfl | rfl | rfl <;> simp [gf16Ints]
private theorem fifth_perms : ∀ es ∈ fifthSums, ∀ e ∈ es, ∃ g : Equiv.Perm (Fin 5), IsGapPerm e.cycles g := by
  intro es hes e he; simp [fifthSums] at hes; rcases hes with rfl | rfl <;> simp at he <;>
      rcases he with rfl | rfl | rfl | rfl | rfl <;> exact exists_gapPerm (by decide) (by decide) (by decide)
example : True := by
  obtain ⟨xs, h, hx⟩ := C87_members (n := 5) asciiTable_ok (by decide) gf16Ints_ok (by decide) gf16_ok (order := 5) (by decide) fifth_output fifth_sizes fifth_perms
  have h1 := C87_idempotent (n := 5) asciiTable_ok (by decide) gf16Ints_ok (by decide) gf16_ok (order := 5) (by decide) fifth_output fifth_sizes fifth_perms
    (xs.map RMember.val) (by rw [List.forall₂_map_right_iff]; exact hx)
  trivial

end QLDPC.Props

#print axioms QLDPC.Props.C87_parse
#print axioms QLDPC.Props.C87_members
#print axioms QLDPC.Props.C87_unique
#print axioms QLDPC.Props.C87_idempotent
#print axioms QLDPC.Props.C87_semisimple
#print axioms QLDPC.Props.C87_subfield_disagreement
