import Verif.Model.Cache

/-! # C64: the disk cache is transparent -/

namespace QLDPC.Props

open QLDPC

variable {A K V : Type} [DecidableEq K]

/-- what the cache holds is what the function returns for every call with that key -/
private def Sound (key : A → K) (f : A → Option V) (cache : K → Option V) : Prop :=
  ∀ a v, cache (key a) = some v → f a = some v

private theorem sound_step {pytest : Bool} {key : A → K} {f : A → Option V}
    (hk : ∀ a b v, key a = key b → f a = some v → f b = some v) {cache : K → Option V} (h : Sound key f cache) (a : A) :
    (decorated pytest key f cache a).1 = f a ∧ Sound key f (decorated pytest key f cache a).2 := by
  unfold decorated
  cases pytest with
  | true => exact ⟨rfl, h⟩
  | false =>
    simp only [Bool.false_eq_true, if_false]
    unfold cachedCall
    cases hc : cache (key a) with
    | some v => exact ⟨(h a v hc).symm, h⟩
    | none =>
      cases hf : f a with
      | none => exact ⟨rfl, h⟩
      | some v =>
        refine ⟨rfl, fun b w hb => ?_⟩
        simp only at hb
        split_ifs at hb with he
        · rw [← Option.some.inj hb]
          exact hk a b v he.symm hf
        · exact h b w hb

private theorem sound_history {pytest : Bool} {key : A → K} {f : A → Option V}
    (hk : ∀ a b v, key a = key b → f a = some v → f b = some v) (l : List A) {cache : K → Option V}
    (h : Sound key f cache) :
    (history pytest key f cache l).1 = l.map f ∧ Sound key f (history pytest key f cache l).2 := by
  induction l generalizing cache with
  | nil => exact ⟨rfl, h⟩
  | cons a l ih =>
    obtain ⟨h1, h2⟩ := sound_step (pytest := pytest) hk h a
    obtain ⟨h3, h4⟩ := ih h2
    unfold history
    exact ⟨by simp only [h1, h3, List.map_cons], h4⟩

/-- If equal keys imply equal results, then for every history of earlier calls that filled an empty cache, every
further history of calls returns what the plain function returns, call by call. -/
theorem C64_transparent (pytest : Bool) (key : A → K) (f : A → Option V)
    (hk : ∀ a b v, key a = key b → f a = some v → f b = some v) (earlier calls : List A) :
    (history pytest key f (history pytest key f (fun _ => none) earlier).2 calls).1 = calls.map f :=
  (sound_history hk calls (sound_history (pytest := pytest) hk earlier (fun _ _ h => by simp at h)).2).1

/-- The condition is also necessary: otherwise some history of two calls returns a wrong value. -/
theorem C64_iff (key : A → K) (f : A → Option V) :
    (∀ calls : List A, (history false key f (fun _ => none) calls).1 = calls.map f) ↔
      ∀ a b v, key a = key b → f a = some v → f b = some v := by
  constructor
  · intro h a b v hab ha
    have := h [a, b]
    simp [history, decorated, cachedCall, ha, hab] at this
    exact this.symm
  · intro hk calls
    exact (sound_history hk calls (fun _ _ h => by simp at h)).1

private theorem tuple_injective {l l' : List Val} (h : Val.tuple l = Val.tuple l') : l = l' := by
  induction l generalizing l' with
  | nil =>
    cases l' with
    | nil => rfl
    | cons v l' => simp [Val.tuple] at h
  | cons v l ih =>
    cases l' with
    | nil => simp [Val.tuple] at h
    | cons v' l' =>
      simp only [Val.tuple, Val.cons.injEq] at h
      rw [h.1, ih h.2]

private theorem pairs_injective {k k' : List (String × Val)}
    (h : k.map (fun kv => Val.tuple [Val.str kv.1, kv.2]) = k'.map (fun kv => Val.tuple [Val.str kv.1, kv.2])) :
    k = k' := by
  refine List.map_injective_iff.2 ?_ h
  rintro ⟨a, b⟩ ⟨c, d⟩ he
  simp only [Val.tuple, Val.cons.injEq, Val.str.injEq] at he
  rw [he.1, he.2.1]

/-- The default key identifies the call, provided that no positional argument is a pair `(string, value)`. -/
theorem C64_default_key (c c' : CallArgs) (h : ∀ a ∈ c.args, ∀ s v, a ≠ Val.tuple [Val.str s, v])
    (h' : ∀ a ∈ c'.args, ∀ s v, a ≠ Val.tuple [Val.str s, v]) (he : defaultKey c = defaultKey c') : c = c' := by
  obtain ⟨args, kw⟩ := c
  obtain ⟨args', kw'⟩ := c'
  replace he := tuple_injective he
  simp only at h h' he
  induction args generalizing args' with
  | nil =>
    cases args' with
    | nil =>
      have := pairs_injective (k := kw) (k' := kw') (by simpa using he)
      rw [this]
    | cons a args' =>
      cases kw with
      | nil => simp at he
      | cons kv kw =>
        simp only [List.nil_append, List.map_cons, List.cons_append, List.cons.injEq] at he
        exact absurd he.1.symm (h' a (by simp) _ _)
  | cons a args ih =>
    cases args' with
    | nil =>
      cases kw' with
      | nil => simp at he
      | cons kv kw' =>
        simp only [List.nil_append, List.map_cons, List.cons_append, List.cons.injEq] at he
        exact absurd he.1 (h a (by simp) _ _)
    | cons a' args' =>
      simp only [List.cons_append, List.cons.injEq] at he
      have := ih (fun b hb => h b (List.mem_cons_of_mem _ hb)) args' (fun b hb => h' b (List.mem_cons_of_mem _ hb)) he.2
      simp only [CallArgs.mk.injEq] at this
      rw [he.1, this.1, this.2]

/-- Without a key function: for all histories of calls none of whose positional arguments is a pair
`(string, value)`, in particular for the cached functions of the library whose arguments are strings and integers, the
cached function returns what the plain one returns. -/
theorem C64_default_transparent_partial (pytest : Bool)
    (f : {c : CallArgs // ∀ a ∈ c.args, ∀ s v, a ≠ Val.tuple [Val.str s, v]} → Option V)
    (earlier calls : List {c : CallArgs // ∀ a ∈ c.args, ∀ s v, a ≠ Val.tuple [Val.str s, v]}) :
    (history pytest (fun c => defaultKey c.1) f
      (history pytest (fun c => defaultKey c.1) f (fun _ => none) earlier).2 calls).1 = calls.map f := by
  refine C64_transparent pytest _ f (fun a b v hab ha => ?_) earlier calls
  rw [← ha]
  congr 1
  exact (Subtype.ext (C64_default_key a.1 b.1 a.2 b.2 hab)).symm

/-- With a key function through which the function factors, such as the generators of the groups for the intersection
of two groups, the cached function returns what the plain one returns. -/
theorem C64_key_func (pytest : Bool) (key : A → K) (g : K → Option V) (earlier calls : List A) :
    (history pytest key (fun a => g (key a)) (history pytest key (fun a => g (key a)) (fun _ => none) earlier).2 calls).1 =
      calls.map fun a => g (key a) :=
  C64_transparent pytest key _ (fun _ _ _ hab ha => by rw [← hab]; exact ha) earlier calls

/-- A function with one parameter `x` that returns its argument. -/
def identityFunction (c : CallArgs) : Option Val :=
  match c.args, c.kwargs with
  | [v], [] => some v
  | [], [("x", v)] => some v
  | _, _ => none

/-- The claim in full fails: the keys of `f(("x", 1))` and `f(x=1)` are the same, so that the second call returns
`("x", 1)` instead of `1`. -/
theorem C64_key_disagreement : ∃ calls : List CallArgs,
    (history false defaultKey identityFunction (fun _ => none) calls).1 ≠ calls.map identityFunction :=
  ⟨[⟨[Val.tuple [Val.str "x", Val.int 1]], []⟩, ⟨[], [("x", Val.int 1)]⟩], by decide +kernel⟩

/-! ## The hypotheses can be met -/

/-- the second call is answered from the cache, and calls that raise are repeated -/
example : (history false defaultKey identityFunction (fun _ => none)
    [⟨[Val.int 7], []⟩, ⟨[Val.int 7], []⟩, ⟨[], [("x", Val.int 7)]⟩, ⟨[], []⟩]).1 =
      [some (Val.int 7), some (Val.int 7), some (Val.int 7), none] := by decide +kernel

example : ∀ a ∈ (⟨[Val.str "SmallGroup(6,1)", Val.int 2], []⟩ : CallArgs).args, ∀ s v, a ≠ Val.tuple [Val.str s, v] := by
  simp [Val.tuple]

section AxiomCheck
#print axioms C64_transparent
#print axioms C64_iff
#print axioms C64_default_key
#print axioms C64_default_transparent_partial
#print axioms C64_key_func
#print axioms C64_key_disagreement
end AxiomCheck

/-! ### Instances of the theorems: concrete cases meet the hypotheses -/

/-- A key that tells apart calls with different results: `C64_transparent` applies. -/
example := C64_transparent (A := ℕ) false (fun a => a % 3) (fun a => if a % 3 = 0 then none else some (a % 3))
  (fun a b v h => by simp only [h]; exact id) [1, 2, 3] [4, 5, 6, 4]
example := C64_default_key ⟨[Val.str "SmallGroup(6,1)", Val.int 2], []⟩ ⟨[Val.str "SmallGroup(6,1)", Val.int 2], []⟩
  (by simp [Val.tuple]) (by simp [Val.tuple]) rfl

end QLDPC.Props
