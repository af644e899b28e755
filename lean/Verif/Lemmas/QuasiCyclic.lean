import Verif.Model.QuasiCyclic
import Verif.Lemmas.Abelian
import Mathlib.Tactic.Ring
import Mathlib.Tactic.Abel

/-!
# Lemmas on quasi-cyclic codes
-/

namespace QLDPC

/-! ### Powers of generators -/

theorem invPerm_cyclicGen {degree o n : ℕ} (hn : 0 < n) (hd : o + n ≤ degree) :
    invPerm degree (cyclicGen o n) = (cyclicGen o n)^[n - 1] := by
  funext x
  unfold invPerm
  have hinv : ∀ x, cyclicGen o n ((cyclicGen o n)^[n - 1] x) = x := by
    intro x
    rw [← Function.iterate_succ_apply' (cyclicGen o n), Nat.succ_eq_add_one, Nat.sub_add_cancel hn, cyclicGen_iterate hn]
    split_ifs with h
    · rw [Nat.add_mod_right, Nat.mod_eq_of_lt (by omega)]; omega
    · rfl
  have hinj : Function.Injective (cyclicGen o n) := by
    have : ∀ x, (cyclicGen o n)^[n - 1] (cyclicGen o n x) = x := by
      intro x
      rw [← Function.iterate_succ_apply (cyclicGen o n), Function.iterate_succ_apply']
      exact hinv x
    exact Function.LeftInverse.injective this
  split_ifs with hx
  · have hy : (cyclicGen o n)^[n - 1] x < degree := by
      rw [cyclicGen_iterate hn]
      split_ifs with h
      · have := Nat.mod_lt (x - o + (n - 1)) hn
        omega
      · exact hx
    have hl : (arrayForm degree (cyclicGen o n)).Nodup := List.Nodup.map hinj List.nodup_range
    have hg : (arrayForm degree (cyclicGen o n))[(cyclicGen o n)^[n - 1] x]'(by simpa [arrayForm] using hy) = x := by
      simp only [arrayForm, List.getElem_map, List.getElem_range]
      exact hinv x
    have := hl.idxOf_getElem _ (by simpa [arrayForm] using hy)
    rw [hg] at this
    exact this
  · rw [cyclicGen_iterate hn, if_neg (by omega)]

theorem permPow_cyclicGen {degree o n : ℕ} (hn : 0 < n) (hd : o + n ≤ degree) (e : ℤ) (x : ℕ) :
    permPow degree (cyclicGen o n) e x =
      if o ≤ x ∧ x < o + n then o + (x - o + (e % n).toNat) % n else x := by
  have hmod : ∀ k : ℕ, (k : ℤ) % n = e % n → ∀ a, (a + k) % n = (a + (e % n).toNat) % n := by
    intro k hk a
    rw [← hk, ← Int.natCast_mod, Int.toNat_natCast, Nat.add_mod_mod]
  cases e with
  | ofNat k =>
    rw [permPow, cyclicGen_iterate hn]
    split_ifs
    · rw [hmod k rfl]
    · rfl
  | negSucc k =>
    rw [permPow, invPerm_cyclicGen hn hd, ← Function.iterate_mul, cyclicGen_iterate hn]
    split_ifs
    · rw [hmod]
      rw [Int.emod_emod_of_dvd _ (dvd_refl _) |>.symm]
      have : (((n - 1) * (k + 1) : ℕ) : ℤ) = Int.negSucc k + (k + 1) * n := by
        rw [Int.negSucc_eq]
        push_cast [Nat.cast_sub hn]
        ring
      rw [this, Int.add_mul_emod_self_right]
      simp
    · rfl

/-! ### Group members -/

section

variable {S : Type} [DecidableEq S]

theorem shiftBlocks_zero {o n x : ℕ} {ns as : List ℕ} (hn : 0 < n) :
    shiftBlocks o (n :: ns) (0 :: as) x = shiftBlocks (o + n) ns as x := by
  rw [shiftBlocks_cons]
  split_ifs with h
  · rw [shiftBlocks_low h.2, Nat.add_zero, Nat.mod_eq_of_lt (by omega)]; omega
  · rfl

theorem shiftBlocks_allZero (d : List (S × ℕ)) (hpos : ∀ p ∈ d, 0 < p.2) (o x : ℕ) :
    shiftBlocks o (d.map Prod.snd) (d.map fun _ => 0) x = x := by
  induction d generalizing o with
  | nil => rfl
  | cons p d ih =>
    rw [List.map_cons, List.map_cons, shiftBlocks_zero (hpos p List.mem_cons_self)]
    exact ih (fun q hq => hpos q (List.mem_cons_of_mem _ hq)) _

theorem lookup_gens (d : List (S × ℕ)) (hpos : ∀ p ∈ d, 0 < p.2) (hnd : (d.map Prod.fst).Nodup) {degree o : ℕ}
    (hd : o + (d.map Prod.snd).sum ≤ degree) (s : S) (hs : s ∈ d.map Prod.fst) :
    ∃ g, ((d.map Prod.fst).zip (abelianGens o (d.map Prod.snd))).lookup s = some g ∧ ∀ e : ℤ, ∀ x,
      permPow degree g e x =
        shiftBlocks o (d.map Prod.snd) (d.map fun p => if p.1 = s then (e % p.2).toNat else 0) x := by
  induction d generalizing o with
  | nil => cases hs
  | cons p d ih =>
    have hn : 0 < p.2 := hpos p List.mem_cons_self
    simp only [List.map_cons, abelianGens, List.zip_cons_cons, List.sum_cons] at hd ⊢
    rw [List.map_cons, List.nodup_cons] at hnd
    by_cases h : p.1 = s
    · refine ⟨cyclicGen o p.2, by rw [List.lookup_cons, h]; simp, fun e x => ?_⟩
      rw [permPow_cyclicGen hn (by omega), shiftBlocks_cons, if_pos h]
      split_ifs with hx
      · rfl
      · have : (d.map fun q => if q.1 = s then (e % q.2).toNat else 0) = d.map fun _ => 0 := by
          refine List.map_congr_left fun q hq => if_neg fun hc => hnd.1 ?_
          rw [h, ← hc]
          exact List.mem_map_of_mem hq
        rw [this, shiftBlocks_allZero d fun q hq => hpos q (List.mem_cons_of_mem _ hq)]
    · rw [List.map_cons, List.mem_cons] at hs
      have hs' : s ∈ d.map Prod.fst := hs.resolve_left fun hc => h hc.symm
      obtain ⟨g, hg, hp⟩ := ih (fun q hq => hpos q (List.mem_cons_of_mem _ hq)) hnd.2 (o := o + p.2) (by omega) hs'
      refine ⟨g, ?_, fun e x => ?_⟩
      · rw [List.lookup_cons, beq_eq_false_iff_ne.2 fun hc => h hc.symm]
        exact hg
      · rw [hp, if_neg h, shiftBlocks_zero hn]

/-- The total exponent of a symbol. -/
def exponentSum (exps : List (S × ℤ)) (s : S) : ℤ := ((exps.filter fun e => e.1 = s).map Prod.snd).sum

/-- The exponents modulo the orders. -/
def expVec (d : List (S × ℕ)) (exps : List (S × ℤ)) : List ℕ := d.map fun p => (exponentSum exps p.1 % p.2).toNat

theorem addExps_map (d : List (S × ℕ)) (f g : S × ℕ → ℕ) :
    addExps (d.map Prod.snd) (d.map f) (d.map g) = d.map fun p => (f p + g p) % p.2 := by
  induction d with
  | nil => rfl
  | cons p d ih => simp [addExps, ih]

theorem isExps_expVec (d : List (S × ℕ)) (hpos : ∀ p ∈ d, 0 < p.2) (exps : List (S × ℤ)) :
    IsExps (d.map Prod.snd) (expVec d exps) := by
  unfold IsExps expVec
  rw [List.forall₂_map_left_iff, List.forall₂_map_right_iff, List.forall₂_same]
  intro p hp
  have h := hpos p hp
  have h1 := Int.emod_nonneg (exponentSum exps p.1) (by omega : (p.2 : ℤ) ≠ 0)
  have h2 := Int.emod_lt_of_pos (exponentSum exps p.1) (by omega : (0 : ℤ) < p.2)
  omega

theorem arrayMulList_arrayForm (degree : ℕ) (p q : ℕ → ℕ) (hp : ∀ x < degree, p x < degree) :
    arrayMulList (arrayForm degree p) (arrayForm degree q) = arrayForm degree fun x => q (p x) := by
  unfold arrayMulList arrayForm
  rw [List.map_map]
  refine List.map_congr_left fun x hx => ?_
  have := hp x (List.mem_range.1 hx)
  simp [List.getD, this]

theorem shiftBlocks_lt {orders exps : List ℕ} (hpos : ∀ n ∈ orders, 0 < n) (o : ℕ) {x : ℕ} (h : x < o + orders.sum) :
    shiftBlocks o orders exps x < o + orders.sum := by
  induction orders generalizing o exps with
  | nil => cases exps <;> exact h
  | cons n ns ih =>
    cases exps with
    | nil => exact h
    | cons a as =>
      rw [shiftBlocks_cons]
      have hn := hpos n List.mem_cons_self
      rw [List.sum_cons] at h ⊢
      split_ifs with hx
      · have := Nat.mod_lt (x - o + a) hn
        omega
      · have := ih (exps := as) (fun k hk => hpos k (List.mem_cons_of_mem _ hk)) (o + n) (by omega)
        omega

/-- A monomial is the member with its exponents, if all its symbols are known. -/
theorem toGroupMember_eq {drop : Bool} (d : List (S × ℕ)) (h : GoodOrders drop (d.map Prod.snd)) (hnd : (d.map Prod.fst).Nodup)
    (exps : List (S × ℤ)) (hs : ∀ e ∈ exps, e.1 ∈ d.map Prod.fst) :
    toGroupMember (d.map Prod.snd).sum (symbolGens drop d) exps =
      some (arrayForm (d.map Prod.snd).sum (shiftBlocks 0 (d.map Prod.snd) (expVec d exps))) := by
  have hpos : ∀ p ∈ d, 0 < p.2 := fun p hp => h.pos _ (List.mem_map_of_mem hp)
  have key : ∀ (exps done : List (S × ℤ)), (∀ e ∈ exps, e.1 ∈ d.map Prod.fst) →
      exps.foldl (fun acc e => acc.bind fun p => ((symbolGens drop d).lookup e.1).map fun g =>
        arrayMulList p (arrayForm (d.map Prod.snd).sum (permPow (d.map Prod.snd).sum g e.2)))
        (some (arrayForm (d.map Prod.snd).sum (shiftBlocks 0 (d.map Prod.snd) (expVec d done)))) =
      some (arrayForm (d.map Prod.snd).sum (shiftBlocks 0 (d.map Prod.snd) (expVec d (done ++ exps)))) := by
    intro exps
    induction exps with
    | nil => intro done _; rw [List.append_nil]; rfl
    | cons e exps ih =>
      intro done hs
      obtain ⟨g, hg, hp⟩ := lookup_gens d hpos hnd (o := 0) (by rw [Nat.zero_add]) e.1 (hs e List.mem_cons_self)
      rw [List.foldl_cons, Option.bind_some]
      have hlook : (symbolGens drop d).lookup e.1 = some g := by
        unfold symbolGens
        rw [sympyGens_eq h]
        exact hg
      rw [hlook, Option.map_some, arrayMulList_arrayForm _ _ _ fun x hx => ?_]
      swap
      · have := shiftBlocks_lt (exps := expVec d done) h.pos 0 (x := x) (by omega)
        omega
      have hstep : (fun x => permPow (d.map Prod.snd).sum g e.2 (shiftBlocks 0 (d.map Prod.snd) (expVec d done) x)) =
          shiftBlocks 0 (d.map Prod.snd) (expVec d (done ++ [e])) := by
        funext x
        rw [hp, shiftBlocks_mul h.pos (by simp [expVec]) (by simp)]
        congr 1
        unfold expVec
        rw [addExps_map]
        refine List.map_congr_left fun p hp' => ?_
        have hn : (0 : ℤ) < p.2 := by exact_mod_cast hpos p hp'
        have h0 := Int.emod_nonneg (exponentSum done p.1) hn.ne'
        have h1 := Int.emod_nonneg e.2 hn.ne'
        by_cases hc : p.1 = e.1
        · rw [if_pos hc]
          have : exponentSum (done ++ [e]) p.1 = exponentSum done p.1 + e.2 := by
            simp [exponentSum, List.filter_append, hc]
          rw [this, ← Int.emod_add_emod, ← Int.add_emod_emod]
          zify
          rw [Int.toNat_of_nonneg h0, Int.toNat_of_nonneg h1, Int.toNat_of_nonneg (Int.emod_nonneg _ hn.ne')]
        · rw [if_neg hc]
          have : exponentSum (done ++ [e]) p.1 = exponentSum done p.1 := by
            simp [exponentSum, List.filter_append, Ne.symm hc]
          rw [this, Nat.add_zero]
          have h2 := Int.emod_lt_of_pos (exponentSum done p.1) hn
          exact Nat.mod_eq_of_lt (by omega)
      rw [hstep, ih (done ++ [e]) fun e' he' => hs e' (List.mem_cons_of_mem _ he'), List.append_assoc]
      rfl
  have h0 : List.range (d.map Prod.snd).sum =
      arrayForm (d.map Prod.snd).sum (shiftBlocks 0 (d.map Prod.snd) (expVec d [])) := by
    unfold arrayForm
    have : expVec d [] = d.map fun _ => 0 := List.map_congr_left fun p _ => by simp [exponentSum]
    rw [this]
    conv_lhs => rw [← List.map_id (List.range (d.map Prod.snd).sum)]
    exact List.map_congr_left fun x _ => (shiftBlocks_allZero d hpos 0 x).symm
  unfold toGroupMember
  rw [h0, key exps [] hs, List.nil_append]

end

/-! ### Ring members and their lifts -/

section

variable {F G : Type} [Field F] [DecidableEq F] [DecidableEq G]

theorem foldl_lift {d : ℕ} (L : G → Matrix (Fin d) (Fin d) F) (x : RMember F G) (z : Matrix (Fin d) (Fin d) F) :
    (x.filter fun e => e.2 ≠ 0).foldl (fun z e => z + e.2 • L e.1) z = z + (x.map fun e => e.2 • L e.1).sum := by
  induction x generalizing z with
  | nil => simp
  | cons e x ih =>
    by_cases h : e.2 = 0
    · rw [List.filter_cons_of_neg (by simpa using h), ih, List.map_cons, List.sum_cons, h, zero_smul, zero_add]
    · rw [List.filter_cons_of_pos (by simpa using h), List.foldl_cons, ih, List.map_cons, List.sum_cons, add_assoc]

theorem lift_eq_sum {d : ℕ} (L : G → Matrix (Fin d) (Fin d) F) (x : RMember F G) :
    x.lift L = (x.map fun e => e.2 • L e.1).sum := by
  unfold RMember.lift
  rw [foldl_lift, zero_add]

theorem lift_addAt {d : ℕ} (L : G → Matrix (Fin d) (Fin d) F) (x : RMember F G) (g : G) (v : F) :
    (x.addAt g v).lift L = x.lift L + v • L g := by
  simp only [lift_eq_sum]
  induction x with
  | nil => simp [RMember.addAt]
  | cons e x ih =>
    unfold RMember.addAt
    split_ifs with h
    · subst h
      simp only [List.map_cons, List.sum_cons, add_smul]
      abel
    · simp only [List.map_cons, List.sum_cons, ih]
      abel

theorem keys_addAt (x : RMember F G) (g : G) (v : F) (hx : (x.map Prod.fst).Nodup) :
    ((x.addAt g v).map Prod.fst).Nodup ∧ ∀ k, k ∈ (x.addAt g v).map Prod.fst → k = g ∨ k ∈ x.map Prod.fst := by
  induction x with
  | nil => simp [RMember.addAt]
  | cons e x ih =>
    rw [List.map_cons, List.nodup_cons] at hx
    obtain ⟨h1, h2⟩ := ih hx.2
    unfold RMember.addAt
    split_ifs with h
    · subst h
      refine ⟨by rw [List.map_cons, List.nodup_cons]; exact hx, fun k hk => Or.inr hk⟩
    · rw [List.map_cons, List.nodup_cons]
      refine ⟨⟨fun hc => ?_, h1⟩, fun k hk => ?_⟩
      · rcases h2 _ hc with hc | hc
        · exact h hc
        · exact hx.1 hc
      · rw [List.mem_cons] at hk
        rcases hk with rfl | hk
        · exact Or.inr (by simp)
        · rcases h2 k hk with hk | hk
          · exact Or.inl hk
          · exact Or.inr (List.mem_cons_of_mem _ hk)

theorem copy_eq (x : RMember F G) (hx : (x.map Prod.fst).Nodup) : x.copy = x := by
  have hset : ∀ (z : RMember F G) (g : G) (v : F), g ∉ z.map Prod.fst → z.setAt g v = z ++ [(g, v)] := by
    intro z g v
    induction z with
    | nil => intro _; rfl
    | cons e z ih =>
      intro h
      rw [List.map_cons, List.mem_cons, not_or] at h
      unfold RMember.setAt
      rw [if_neg fun hc => h.1 hc.symm, ih h.2]
      rfl
  have key : ∀ (x z : RMember F G), ((z ++ x).map Prod.fst).Nodup → x.foldl (fun z e => z.setAt e.1 e.2) z = z ++ x := by
    intro x
    induction x with
    | nil => intro z _; simp
    | cons e x ih =>
      intro z h
      have hn : e.1 ∉ z.map Prod.fst := by
        rw [List.map_append, List.map_cons] at h
        intro hc
        exact (List.nodup_append.1 h).2.2 _ hc _ List.mem_cons_self rfl
      rw [List.foldl_cons, hset z _ _ hn, ih _ (by simpa using h)]
      simp
  unfold RMember.copy RMember.zero RMember.ofTerms
  rw [List.foldl_nil, key x [] (by simpa using hx)]
  rfl

theorem ofTerms_single (c : F) (g : G) : (RMember.ofTerms [(c, g)] : RMember F G) = [(g, 0 + c)] := rfl

theorem lift_add_single {d : ℕ} (L : G → Matrix (Fin d) (Fin d) F) (x : RMember F G) (hx : (x.map Prod.fst).Nodup) (c : F)
    (g : G) : (x.add (RMember.ofTerms [(c, g)])).lift L = x.lift L + c • L g ∧
      ((x.add (RMember.ofTerms [(c, g)])).map Prod.fst).Nodup := by
  unfold RMember.add
  rw [copy_eq x hx, ofTerms_single, List.foldl_cons, List.foldl_nil, zero_add]
  exact ⟨lift_addAt L x g c, (keys_addAt x g c hx).1⟩

variable {S : Type} [DecidableEq S]

/-- The lift of a polynomial is the sum of the lifts of its terms. -/
theorem lift_evalPoly (coeffOf : ℤ → Option F) (degree : ℕ) (gens : List (S × (ℕ → ℕ))) (M : Term S → List ℕ) (C : Term S → F)
    (poly : List (Term S)) (hM : ∀ t ∈ poly, toGroupMember degree gens t.exps = some (M t))
    (hC : ∀ t ∈ poly, coeffOf t.coeff = some (C t)) {d : ℕ} (L : List ℕ → Matrix (Fin d) (Fin d) F) :
    ∃ x, evalPoly coeffOf degree gens poly = some x ∧ x.lift L = (poly.map fun t => C t • L (M t)).sum := by
  have hterm : ∀ t ∈ poly, evalTerm coeffOf degree gens t = some (RMember.ofTerms [(C t, M t)]) := by
    intro t ht
    unfold evalTerm
    rw [hM t ht, hC t ht]
    rfl
  have key : ∀ ts : List (Term S), (∀ t ∈ ts, t ∈ poly) → ∀ x : RMember F (List ℕ), (x.map Prod.fst).Nodup →
      ∃ y, evalSum coeffOf degree gens x ts = some y ∧ y.lift L = x.lift L + (ts.map fun t => C t • L (M t)).sum := by
    intro ts
    induction ts with
    | nil => intro _ x _; exact ⟨x, rfl, by simp⟩
    | cons t ts ih =>
      intro hts x hx
      obtain ⟨h1, h2⟩ := lift_add_single L x hx (C t) (M t)
      obtain ⟨y, hy, hl⟩ := ih (fun t' ht' => hts t' (List.mem_cons_of_mem _ ht')) _ h2
      refine ⟨y, ?_, ?_⟩
      · rw [evalSum, hterm t (hts t List.mem_cons_self), Option.bind_some]
        exact hy
      · rw [hl, h1, List.map_cons, List.sum_cons, add_assoc]
  have hsum : ∃ x, evalSum coeffOf degree gens RMember.zero poly = some x ∧
      x.lift L = (poly.map fun t => C t • L (M t)).sum := by
    obtain ⟨y, hy, hl⟩ := key poly (fun t ht => ht) RMember.zero (by simp [RMember.zero, RMember.ofTerms])
    refine ⟨y, hy, ?_⟩
    rw [hl]
    simp [RMember.zero, RMember.ofTerms, lift_eq_sum]
  match poly, hsum, hterm with
  | [], h, _ => exact h
  | [t], _, h =>
    refine ⟨_, h t (by simp), ?_⟩
    rw [ofTerms_single, lift_eq_sum]
    simp
  | _ :: _ :: _, h, _ => exact h

/-- Entries of the lift of a member. -/
theorem arrayLift_apply {orders exps : List ℕ} (he : IsExps orders exps) (i j : Fin orders.prod) {I J : List ℕ}
    (hI : (allPowers orders)[i.val]? = some I) (hJ : (allPowers orders)[j.val]? = some J) :
    (arrayLift orders (arrayForm orders.sum (shiftBlocks 0 orders exps)) i j : F) =
      if I = addExps orders J exps then 1 else 0 := by
  unfold arrayLift abelianLift
  have hb : ∀ (orders' : List ℕ) (o : ℕ) (p q : ℕ → ℕ), (∀ x, o ≤ x → x < o + orders'.sum → p x = q x) →
      (∀ n ∈ orders', 0 < n) → blockShifts o p orders' = blockShifts o q orders' := by
    intro orders'
    induction orders' with
    | nil => intros; rfl
    | cons n ns ih =>
      intro o p q h hpos
      have hn := hpos n List.mem_cons_self
      rw [List.sum_cons] at h
      rw [blockShifts, blockShifts, h o (by omega) (by omega),
        ih (o + n) p q (fun x h1 h2 => h x (by omega) (by omega)) fun k hk => hpos k (List.mem_cons_of_mem _ hk)]
  rw [hb orders 0 _ (shiftBlocks 0 orders exps) ?_ he.pos, blockShifts_eq he,
    kronAll_apply orders exps he.length_eq he.pos hI hJ]
  · split_ifs <;> simp
  · intro x _ hx
    rw [Nat.zero_add] at hx
    simp [arrayForm, List.getD, hx]

end

end QLDPC
