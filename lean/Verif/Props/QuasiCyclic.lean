import Verif.Lemmas.QuasiCyclic
import Verif.Spec.QuasiCyclic
import Verif.Props.Product
import Mathlib.Data.ZMod.Basic
import Mathlib.Data.Int.Interval

/-!
# Quasi-cyclic and bivariate bicycle codes (C51, C52, C53)
-/

namespace QLDPC.Props

open QLDPC QLDPC.Spec

variable {S : Type} [DecidableEq S] {F : Type} [Field F] [DecidableEq F]

/-! ## C51: the orders of the symbols -/

theorem dictSet_new {V : Type} (d : List (S × V)) (k : S) (v : V) (h : k ∉ d.map Prod.fst) : dictSet d k v = d ++ [(k, v)] := by
  induction d with
  | nil => rfl
  | cons e d ih =>
    rw [List.map_cons, List.mem_cons, not_or] at h
    rw [dictSet, if_neg fun hc => h.1 hc.symm, ih h.2]
    rfl

theorem length_dictSet_old {V : Type} (d : List (S × V)) (k : S) (v : V) (h : k ∈ d.map Prod.fst) :
    (dictSet d k v).length = d.length ∧ k ∈ (dictSet d k v).map Prod.fst := by
  induction d with
  | nil => cases h
  | cons e d ih =>
    unfold dictSet
    split_ifs with hc
    · simp
    · rw [List.map_cons, List.mem_cons] at h
      obtain ⟨h1, h2⟩ := ih (h.resolve_left fun h' => hc h'.symm)
      exact ⟨by simp [h1], List.mem_cons_of_mem _ h2⟩

theorem placeholderLoop_stuck (fresh : S) (orders : List ℕ) (fuel : ℕ) (d : List (S × ℕ)) (hd : d.length < orders.length)
    (hf : fresh ∈ d.map Prod.fst) : placeholderLoop fresh orders fuel d = none := by
  induction fuel generalizing d with
  | zero => rfl
  | succ fuel ih =>
    obtain ⟨h1, h2⟩ := length_dictSet_old d fresh (orders.getD d.length 0) hf
    rw [placeholderLoop, if_pos hd, ih _ (by omega) h2]

/-- For a sequence of at least as many orders as symbols, the loop that adds placeholders ends exactly if there is at most
one more order than symbols. -/
theorem C51_loop_ends_iff (fresh : S) (symbols : List S) (hf : fresh ∉ symbols) (orders : List ℕ)
    (hlen : symbols.length ≤ orders.length) :
    (∃ fuel r, symbolOrders fuel fresh symbols (.seq orders) = some r) ↔ orders.length ≤ symbols.length + 1 := by
  have hz : (symbols.zip orders).length = symbols.length := by simp [hlen]
  have hfz : fresh ∉ (symbols.zip orders).map Prod.fst := by
    rw [List.map_fst_zip hlen]; exact hf
  have hnot : ¬ (OrdersArg.seq orders : OrdersArg S).length < symbols.length := by simp [OrdersArg.length, hlen]
  constructor
  · rintro ⟨fuel, r, h⟩
    by_contra hc
    rw [symbolOrders, if_neg hnot] at h
    have : placeholderLoop fresh orders fuel (symbols.zip orders) = none := by
      cases fuel with
      | zero => rfl
      | succ fuel =>
        rw [placeholderLoop, if_pos (by omega), dictSet_new _ _ _ hfz]
        exact placeholderLoop_stuck _ _ _ _ (by simp only [List.length_append, hz, List.length_singleton]; omega) (by simp)
    rw [this] at h
    cases h
  · intro h
    refine ⟨2, ?_⟩
    rw [symbolOrders, if_neg hnot]
    simp only [placeholderLoop, hz]
    split_ifs with h1 h2
    · rw [dictSet_new _ _ _ hfz, List.length_append, hz, List.length_singleton] at h2
      omega
    · exact ⟨_, rfl⟩
    · exact ⟨_, rfl⟩

theorem map_snd_zip_take {α β : Type} (l : List α) (m : List β) :
    (l.zip m).map Prod.snd = m.take l.length := by
  induction l generalizing m with
  | nil => simp
  | cons a l ih => cases m <;> simp [ih]

/-- In that case the orders are the given ones, the symbols are assigned in order, and a placeholder is added if there is
an order left over. -/
theorem C51_symbols (fresh : S) (symbols : List S) (hf : fresh ∉ symbols) (hnd : symbols.Nodup) (orders : List ℕ)
    (hlen : symbols.length ≤ orders.length) (hone : orders.length ≤ symbols.length + 1) (fuel : ℕ) :
    ∃ d, symbolOrders (fuel + 2) fresh symbols (.seq orders) = some (some d) ∧ d.map Prod.snd = orders ∧
      (d.map Prod.fst).Nodup ∧ (d.map Prod.fst).take symbols.length = symbols := by
  have hz : (symbols.zip orders).length = symbols.length := by simp [hlen]
  have hfst : (symbols.zip orders).map Prod.fst = symbols := List.map_fst_zip hlen
  have hfz : fresh ∉ (symbols.zip orders).map Prod.fst := by rw [hfst]; exact hf
  have hnot : ¬ (OrdersArg.seq orders : OrdersArg S).length < symbols.length := by simp [OrdersArg.length, hlen]
  rw [symbolOrders, if_neg hnot]
  simp only [placeholderLoop, hz]
  have hsnd : (symbols.zip orders).map Prod.snd = orders.take symbols.length := by
    rw [map_snd_zip_take]
  split_ifs with h1 h2
  · rw [dictSet_new _ _ _ hfz, List.length_append, hz, List.length_singleton] at h2
    omega
  · rw [dictSet_new _ _ _ hfz]
    refine ⟨_, rfl, ?_, ?_, ?_⟩
    · rw [List.map_append, hsnd]
      have h3 : orders.length = symbols.length + 1 := by omega
      rw [List.map_cons, List.map_nil, List.getD_eq_getElem _ _ h1, List.take_append_getElem h1, List.take_of_length_le (by omega)]
    · rw [List.map_append, hfst, List.nodup_append]
      refine ⟨hnd, by simp, ?_⟩
      intro a ha b hb hc
      simp only [List.map_cons, List.map_nil, List.mem_singleton] at hb
      exact hf (hb ▸ hc ▸ ha)
    · rw [List.map_append, hfst, List.take_left']
      rfl
  · refine ⟨_, rfl, ?_, by rw [hfst]; exact hnd, by rw [hfst, List.take_length]⟩
    rw [hsnd, List.take_of_length_le (by omega)]

/-- **Disagreement**: with two more orders than symbols the constructor does not end. -/
theorem C51_nontermination_disagreement (drop : Bool) (coeffOf : ℤ → Option F) (fuel : ℕ) :
    qcCode fuel drop (7 : ℕ) coeffOf (.seq [2, 3, 5]) [⟨1, []⟩, ⟨1, [(0, 1)]⟩] [⟨1, []⟩, ⟨1, [(0, 2)]⟩] = none := by
  have hs : (freeSymbols [⟨1, []⟩, ⟨1, [((0 : ℕ), 1)]⟩] [⟨1, []⟩, ⟨1, [(0, 2)]⟩]).insertionSort (· ≤ ·) = [0] := by
    decide +kernel
  unfold qcCode
  rw [hs]
  cases h : symbolOrders fuel (7 : ℕ) [0] (.seq [2, 3, 5]) with
  | none => rfl
  | some r =>
    have := (C51_loop_ends_iff (7 : ℕ) [0] (by simp) [2, 3, 5] (by simp)).1 ⟨fuel, r, h⟩
    simp at this

/-! ## C51: the matrices -/

theorem torusCoords_eq {orders : List ℕ} {i : ℕ} (hi : i < orders.prod) :
    (allPowers orders)[i]? = some (torusCoords orders i) := by
  induction orders generalizing i with
  | nil =>
    have : i = 0 := by simpa using hi
    subst this
    rfl
  | cons n ns ih =>
    rw [allPowers_getElem? hi]
    rw [List.prod_cons] at hi
    have hP : 0 < ns.prod := Nat.pos_of_ne_zero fun h => by rw [h] at hi; omega
    have hd : i / ns.prod < n := (Nat.div_lt_iff_lt_mul hP).2 hi
    rw [ih (Nat.mod_lt _ hP), Option.map_some, torusCoords, Nat.mod_eq_of_lt hd]

theorem addExps_expVec (d : List (S × ℕ)) (hpos : ∀ p ∈ d, 0 < p.2) {I : List ℕ} (hI : I.length = d.length)
    (exps : List (S × ℤ)) : addExps (d.map Prod.snd) I (expVec d exps) = movedBy 1 d I exps := by
  unfold expVec movedBy
  induction d generalizing I with
  | nil => cases I <;> rfl
  | cons p d ih =>
    cases I with
    | nil => simp at hI
    | cons a I =>
      simp only [List.map_cons, addExps, List.zipWith_cons_cons]
      rw [ih (fun q hq => hpos q (List.mem_cons_of_mem _ hq)) (by simpa using hI)]
      congr 1
      have hn : (0 : ℤ) < p.2 := by exact_mod_cast hpos p List.mem_cons_self
      have h0 := Int.emod_nonneg (exponentSum exps p.1) hn.ne'
      have : exponentOf exps p.1 = exponentSum exps p.1 := rfl
      rw [this, one_mul, ← Int.add_emod_emod]
      zify
      rw [Int.toNat_of_nonneg h0, Int.toNat_of_nonneg (Int.emod_nonneg _ hn.ne')]

/-- Everything the constructor needs: names and orders of the symbols, and polynomials over these symbols with
coefficients that the field accepts. -/
structure QCInput (drop : Bool) (coeffOf : ℤ → Option F) (C : ℤ → F) (d : List (S × ℕ)) (poly : List (Term S)) : Prop where
  good : GoodOrders drop (d.map Prod.snd)
  names : (d.map Prod.fst).Nodup
  known : ∀ t ∈ poly, ∀ e ∈ t.exps, e.1 ∈ d.map Prod.fst
  coeff : ∀ t ∈ poly, coeffOf t.coeff = some (C t.coeff)

/-- The matrix of the monomial shift. -/
def shiftMatrix (d : List (S × ℕ)) (t : Term S) : Matrix (Fin (d.map Prod.snd).prod) (Fin (d.map Prod.snd).prod) F :=
  fun i j => if torusCoords (d.map Prod.snd) i = addExps (d.map Prod.snd) (torusCoords (d.map Prod.snd) j) (expVec d t.exps) then 1 else 0

theorem evalPoly_lift {drop : Bool} {coeffOf : ℤ → Option F} {C : ℤ → F} {d : List (S × ℕ)} {poly : List (Term S)}
    (h : QCInput drop coeffOf C d poly) :
    ∃ x, evalPoly coeffOf (d.map Prod.snd).sum (symbolGens drop d) poly = some x ∧
      x.lift (arrayLift (d.map Prod.snd)) = (poly.map fun t => C t.coeff • (shiftMatrix d t : Matrix _ _ F)).sum := by
  obtain ⟨x, hx, hl⟩ := lift_evalPoly coeffOf (d.map Prod.snd).sum (symbolGens drop d)
    (fun t => arrayForm (d.map Prod.snd).sum (shiftBlocks 0 (d.map Prod.snd) (expVec d t.exps))) (fun t => C t.coeff) poly
    (fun t ht => toGroupMember_eq d h.good h.names t.exps (h.known t ht)) h.coeff (arrayLift (d.map Prod.snd))
  refine ⟨x, hx, ?_⟩
  rw [hl]
  congr 1
  refine List.map_congr_left fun t _ => ?_
  congr 1
  ext i j
  exact arrayLift_apply (isExps_expVec d (fun p hp => h.good.pos _ (List.mem_map_of_mem hp)) t.exps) i j
    (torusCoords_eq i.isLt) (torusCoords_eq j.isLt)

theorem list_sum_apply {ι : Type} (l : List ι) {N : ℕ} (f : ι → Matrix (Fin N) (Fin N) F) (i j : Fin N) :
    (l.map f).sum i j = (l.map fun t => f t i j).sum := by
  induction l with
  | nil => rfl
  | cons a l ih => rw [List.map_cons, List.sum_cons, List.map_cons, List.sum_cons, Matrix.add_apply, ih]

theorem exists_index {orders I : List ℕ} (h : IsExps orders I) : ∃ k : Fin orders.prod, torusCoords orders k = I := by
  obtain ⟨k, hk, hI⟩ := List.getElem_of_mem (mem_allPowers.2 h)
  have hk' : k < orders.prod := by rw [← allPowers_length]; exact hk
  refine ⟨⟨k, hk'⟩, ?_⟩
  have := torusCoords_eq hk'
  rw [List.getElem?_eq_getElem hk, hI] at this
  exact (Option.some.inj this).symm

theorem torusCoords_inj {orders : List ℕ} {i j : Fin orders.prod} (h : torusCoords orders i = torusCoords orders j) : i = j := by
  have h1 := torusCoords_eq i.isLt
  rw [h, ← torusCoords_eq j.isLt] at h1
  exact Fin.ext ((List.getElem?_inj (by rw [allPowers_length]; exact i.isLt) (allPowers_nodup orders)).1 h1)

theorem isExps_torusCoords {orders : List ℕ} (i : Fin orders.prod) : IsExps orders (torusCoords orders i) :=
  mem_allPowers.1 (List.mem_of_getElem? (torusCoords_eq i.isLt))

theorem addExps_right_comm (orders I as bs : List ℕ) :
    addExps orders (addExps orders I as) bs = addExps orders (addExps orders I bs) as := by
  induction orders generalizing I as bs with
  | nil => cases I <;> cases as <;> cases bs <;> rfl
  | cons n ns ih =>
    cases I <;> cases as <;> cases bs <;> simp only [addExps]
    rw [ih]
    congr 1
    rw [Nat.mod_add_mod, Nat.mod_add_mod, Nat.add_right_comm]

theorem shiftMatrix_mul_apply (d : List (S × ℕ)) (hpos : ∀ p ∈ d, 0 < p.2) (t u : Term S) (i j : Fin (d.map Prod.snd).prod) :
    (shiftMatrix d t * shiftMatrix d u : Matrix (Fin (d.map Prod.snd).prod) (Fin (d.map Prod.snd).prod) F) i j =
      if torusCoords (d.map Prod.snd) i = addExps (d.map Prod.snd)
        (addExps (d.map Prod.snd) (torusCoords (d.map Prod.snd) j) (expVec d u.exps)) (expVec d t.exps) then 1 else 0 := by
  have hj := isExps_torusCoords j
  have hu := isExps_expVec d hpos u.exps
  obtain ⟨k, hk⟩ := exists_index (IsExps.addExps hj.pos hj.length_eq hu.length_eq)
  rw [Matrix.mul_apply, Finset.sum_eq_single k]
  · simp [shiftMatrix, hk]
  · intro l _ hl
    have : ¬ torusCoords (d.map Prod.snd) l = addExps (d.map Prod.snd) (torusCoords (d.map Prod.snd) j) (expVec d u.exps) := by
      rw [← hk]
      exact fun h => hl (torusCoords_inj h)
    simp [shiftMatrix, this]
  · intro h
    exact absurd (Finset.mem_univ k) h

theorem shiftMatrix_mul (d : List (S × ℕ)) (hpos : ∀ p ∈ d, 0 < p.2) (t u : Term S) :
    (shiftMatrix d t : Matrix _ _ F) * shiftMatrix d u = shiftMatrix d u * shiftMatrix d t := by
  ext i j
  rw [shiftMatrix_mul_apply d hpos, shiftMatrix_mul_apply d hpos, addExps_right_comm]

theorem sum_commute {R : Type} [Ring R] {ι κ : Type} (l : List ι) (m : List κ) (f : ι → R) (g : κ → R)
    (h : ∀ a b, f a * g b = g b * f a) : (l.map f).sum * (m.map g).sum = (m.map g).sum * (l.map f).sum := by
  have h1 : ∀ a, f a * (m.map g).sum = (m.map g).sum * f a := by
    intro a
    induction m with
    | nil => simp
    | cons b m ih => rw [List.map_cons, List.sum_cons, mul_add, add_mul, ih, h]
  induction l with
  | nil => simp
  | cons a l ih => rw [List.map_cons, List.sum_cons, mul_add, add_mul, ih, h1]

theorem movedBy_length (sign : ℤ) (d : List (S × ℕ)) (I : List ℕ) (exps : List (S × ℤ)) (h : I.length = d.length) :
    (movedBy sign d I exps).length = d.length := by simp [movedBy, h]

theorem movedBy_symm (d : List (S × ℕ)) {I J : List ℕ} (hI : IsExps (d.map Prod.snd) I) (hJ : IsExps (d.map Prod.snd) J)
    (exps : List (S × ℤ)) (h : I = movedBy 1 d J exps) : J = movedBy (-1) d I exps := by
  unfold movedBy at h ⊢
  induction d generalizing I J with
  | nil =>
    cases hJ
    cases I <;> rfl
  | cons p d ih =>
    rw [List.map_cons] at hI hJ
    cases hI with
    | cons ha hI =>
      rename_i a I
      cases hJ with
      | cons hb hJ =>
        rename_i b J
        simp only [List.zipWith_cons_cons, List.cons.injEq] at h ⊢
        refine ⟨?_, ih hI hJ h.2⟩
        obtain ⟨h1, -⟩ := h
        have hn : (p.2 : ℤ) ≠ 0 := by omega
        have h0 := Int.emod_nonneg ((b : ℤ) + 1 * exponentOf exps p.1) hn
        have h2 : (a : ℤ) = (b + 1 * exponentOf exps p.1) % p.2 := by
          rw [h1, Int.toNat_of_nonneg h0]
        rw [h2, Int.emod_add_emod, one_mul, neg_one_mul, add_neg_cancel_right, Int.emod_eq_of_lt (by omega) (by omega)]
        rfl

theorem movedBy_symm' (d : List (S × ℕ)) {I J : List ℕ} (hI : IsExps (d.map Prod.snd) I) (hJ : IsExps (d.map Prod.snd) J)
    (exps : List (S × ℤ)) (h : J = movedBy (-1) d I exps) : I = movedBy 1 d J exps := by
  unfold movedBy at h ⊢
  induction d generalizing I J with
  | nil =>
    cases hI
    cases J <;> rfl
  | cons p d ih =>
    rw [List.map_cons] at hI hJ
    cases hI with
    | cons ha hI =>
      rename_i a I
      cases hJ with
      | cons hb hJ =>
        rename_i b J
        simp only [List.zipWith_cons_cons, List.cons.injEq] at h ⊢
        refine ⟨?_, ih hI hJ h.2⟩
        obtain ⟨h1, -⟩ := h
        have hn : (p.2 : ℤ) ≠ 0 := by omega
        have h0 := Int.emod_nonneg ((a : ℤ) + -1 * exponentOf exps p.1) hn
        have h2 : (b : ℤ) = (a + -1 * exponentOf exps p.1) % p.2 := by
          rw [h1, Int.toNat_of_nonneg h0]
        rw [h2, Int.emod_add_emod, one_mul, neg_one_mul, neg_add_cancel_right, Int.emod_eq_of_lt (by omega) (by omega)]
        rfl

/-- C51, C52: a quasi-cyclic code exists for polynomials over the given symbols, its parity checks commute, and the qubits
that a parity check addresses are the ones that are reached by the monomials of the polynomials. -/
theorem C51_code {drop : Bool} {coeffOf : ℤ → Option F} {C : ℤ → F} {d : List (S × ℕ)} {polyA polyB : List (Term S)}
    (hA : QCInput drop coeffOf C d polyA) (hB : QCInput drop coeffOf C d polyB) :
    ∃ mx mz, qcMatrices drop coeffOf d polyA polyB = some (mx, mz) ∧
      mx.length = (d.map Prod.snd).prod ∧ mz.length = (d.map Prod.snd).prod ∧
      (∀ x ∈ mx, ∀ z ∈ mz, ∑ q, x q * z q = 0) ∧
      ∀ i j : Fin (d.map Prod.snd).prod,
        let I := torusCoords (d.map Prod.snd) i
        let J := torusCoords (d.map Prod.snd) j
        matEntry mx i j = (polyA.map fun t => if J = movedBy 1 d I t.exps then C t.coeff else 0).sum ∧
        matEntry mx i ((d.map Prod.snd).prod + j) = (polyB.map fun t => if J = movedBy 1 d I t.exps then C t.coeff else 0).sum ∧
        matEntry mz i j = (polyB.map fun t => if J = movedBy (-1) d I t.exps then C t.coeff else 0).sum ∧
        matEntry mz i ((d.map Prod.snd).prod + j) =
          - (polyA.map fun t => if J = movedBy (-1) d I t.exps then C t.coeff else 0).sum := by
  have hpos : ∀ p ∈ d, 0 < p.2 := fun p hp => hA.good.pos _ (List.mem_map_of_mem hp)
  obtain ⟨a, ha, hla⟩ := evalPoly_lift hA
  obtain ⟨b, hb, hlb⟩ := evalPoly_lift hB
  have hLA : (liftedTranspose (d.map Prod.snd) a).length = (d.map Prod.snd).prod := by simp [liftedTranspose]
  have hLB : (liftedTranspose (d.map Prod.snd) b).length = (d.map Prod.snd).prod := by simp [liftedTranspose]
  have hent : ∀ (x : RMember F (List ℕ)) (i j : Fin (d.map Prod.snd).prod),
      matEntry (liftedTranspose (d.map Prod.snd) x) i j = x.lift (arrayLift (d.map Prod.snd)) j i := by
    intro x i j
    rw [matEntry_sq (by simp [liftedTranspose])]
    exact congrFun (List.getElem_ofFn _) j
  obtain ⟨⟨mx, mz⟩, hm⟩ : ∃ m, tbCode false (liftedTranspose (d.map Prod.snd) a) (liftedTranspose (d.map Prod.snd) b) = some m := by
    unfold tbCode
    rw [dif_pos ⟨hLB, hLA⟩]
    simp
  obtain ⟨hx, hz, hbl⟩ := C45_blocks hm
  have hexp : ∀ i : Fin (d.map Prod.snd).prod, (torusCoords (d.map Prod.snd) i).length = d.length := by
    intro i
    rw [(isExps_torusCoords i).length_eq, List.length_map]
  have hsum : ∀ (poly : List (Term S)) (i j : Fin (d.map Prod.snd).prod),
      (poly.map fun t => C t.coeff • (shiftMatrix d t : Matrix _ _ F)).sum i j =
        (poly.map fun t => if torusCoords (d.map Prod.snd) i = movedBy 1 d (torusCoords (d.map Prod.snd) j) t.exps
          then C t.coeff else 0).sum := by
    intro poly i j
    rw [list_sum_apply]
    congr 1
    refine List.map_congr_left fun t _ => ?_
    rw [Matrix.smul_apply, smul_eq_mul, shiftMatrix, addExps_expVec d hpos (hexp j), mul_ite, mul_one, mul_zero]
  have hneg : ∀ (poly : List (Term S)) (i j : Fin (d.map Prod.snd).prod),
      (poly.map fun t => if torusCoords (d.map Prod.snd) i = movedBy 1 d (torusCoords (d.map Prod.snd) j) t.exps
          then C t.coeff else 0) =
      (poly.map fun t => if torusCoords (d.map Prod.snd) j = movedBy (-1) d (torusCoords (d.map Prod.snd) i) t.exps
          then C t.coeff else 0) := by
    intro poly i j
    refine List.map_congr_left fun t _ => ?_
    refine if_congr ⟨movedBy_symm d (isExps_torusCoords i) (isExps_torusCoords j) t.exps,
      movedBy_symm' d (isExps_torusCoords i) (isExps_torusCoords j) t.exps⟩ rfl rfl
  refine ⟨mx, mz, ?_, hx, hz, ?_, ?_⟩
  · unfold qcMatrices
    rw [ha, hb]
    exact hm
  · refine (C45_checks_commute hm).1.2 ?_
    intro i j
    simp only [hent]
    have hc := sum_commute polyA polyB (fun t => C t.coeff • (shiftMatrix d t : Matrix _ _ F))
      (fun t => C t.coeff • (shiftMatrix d t : Matrix _ _ F)) (by
        intro t u
        rw [smul_mul_smul_comm, smul_mul_smul_comm, shiftMatrix_mul d hpos, mul_comm])
    rw [← hla, ← hlb] at hc
    have := congrFun (congrFun hc j) i
    rw [Matrix.mul_apply, Matrix.mul_apply] at this
    simp only [mul_comm (RMember.lift _ a _ _)] at this ⊢
    exact this.symm
  · intro i j
    obtain ⟨h1, h2, h3, h4⟩ := hbl i j
    refine ⟨?_, ?_, ?_, ?_⟩
    · rw [h1, hent, hla, hsum]
    · rw [h2, hent, hlb, hsum]
    · rw [h3, hent, hlb, hsum, hneg]
    · rw [h4, hent, hla, hsum, hneg]

/-- C51: in particular `QCCode` accepts every sequence of orders (with as many orders as symbols, or one more) for
polynomials whose coefficients lie in the field. -/
theorem C51_constructor_partial [LinearOrder S] {drop : Bool} {coeffOf : ℤ → Option F} {C : ℤ → F} {orders : List ℕ}
    {polyA polyB : List (Term S)} {fresh : S} (hgood : GoodOrders drop orders)
    (hf : fresh ∉ freeSymbols polyA polyB) (hlen : (freeSymbols polyA polyB).length ≤ orders.length)
    (hone : orders.length ≤ (freeSymbols polyA polyB).length + 1)
    (hC : ∀ t ∈ polyA ++ polyB, coeffOf t.coeff = some (C t.coeff)) (fuel : ℕ) :
    ∃ d mx mz, qcCode (fuel + 2) drop fresh coeffOf (.seq orders) polyA polyB = some (some ⟨d, mx, mz⟩) ∧
      d.map Prod.snd = orders ∧ ∀ x ∈ mx, ∀ z ∈ mz, ∑ q, x q * z q = 0 := by
  set symbols := (freeSymbols polyA polyB).insertionSort (· ≤ ·) with hs
  have hperm : symbols.Perm (freeSymbols polyA polyB) := List.perm_insertionSort _ _
  have hnd0 : (freeSymbols polyA polyB).Nodup := by unfold freeSymbols; exact List.nodup_dedup _
  obtain ⟨d, hd, hsnd, hnd, htake⟩ := C51_symbols fresh symbols (fun h => hf (hperm.mem_iff.1 h)) (hperm.nodup_iff.2 hnd0) orders
    (by rw [hperm.length_eq]; exact hlen) (by rw [hperm.length_eq]; exact hone) fuel
  have hmem : ∀ t ∈ polyA ++ polyB, ∀ e ∈ t.exps, e.1 ∈ d.map Prod.fst := by
    intro t ht e he
    refine List.mem_of_mem_take (i := symbols.length) ?_
    rw [htake]
    refine hperm.mem_iff.2 ?_
    unfold freeSymbols
    rw [List.mem_dedup, List.mem_flatMap]
    exact ⟨t, ht, List.mem_map_of_mem he⟩
  obtain ⟨mx, mz, hm, -, -, hcomm, -⟩ := C51_code (drop := drop) (coeffOf := coeffOf) (C := C) (d := d) (polyA := polyA) (polyB := polyB)
    ⟨by rw [hsnd]; exact hgood, hnd, fun t ht => hmem t (List.mem_append_left _ ht), fun t ht => hC t (List.mem_append_left _ ht)⟩
    ⟨by rw [hsnd]; exact hgood, hnd, fun t ht => hmem t (List.mem_append_right _ ht), fun t ht => hC t (List.mem_append_right _ ht)⟩
  refine ⟨d, mx, mz, ?_, hsnd, hcomm⟩
  unfold qcCode
  rw [hd, Option.map_some, Option.bind_some, hm]
  rfl

/-- The coefficients over the field with `2` elements. -/
def coeffTwo (c : ℤ) : Option (ZMod 2) := if c = 0 ∨ c = 1 then some c else none

/-- **Disagreement**: with an order of `1` (if the group drops trivial generators, as sympy does) the constructor fails
with a `KeyError`, whichever fuel is given. -/
theorem C51_order_one_disagreement (fuel : ℕ) :
    qcCode (fuel + 2) true (7 : ℕ) coeffTwo (.seq [3, 1]) [⟨1, []⟩, ⟨1, [(0, 1)]⟩] [⟨1, []⟩, ⟨1, [(1, 1)]⟩] = some none := by
  have hs : (freeSymbols [⟨1, []⟩, ⟨1, [((0 : ℕ), 1)]⟩] [⟨1, []⟩, ⟨1, [(1, 1)]⟩]).insertionSort (· ≤ ·) = [0, 1] := by
    decide +kernel
  have hd : symbolOrders (fuel + 2) (7 : ℕ) [0, 1] (.seq [3, 1]) = some (some [(0, 3), (1, 1)]) := rfl
  have hn : (qcMatrices true coeffTwo [(0, 3), (1, 1)] [⟨1, []⟩, ⟨1, [((0 : ℕ), 1)]⟩] [⟨1, []⟩, ⟨1, [(1, 1)]⟩]).isNone = true := by
    decide +kernel
  unfold qcCode
  rw [hs, hd, Option.map_some, Option.bind_some, Option.isNone_iff_eq_none.1 hn]
  rfl

/-- A concrete case: the `[[72, 12, 6]]` code. -/
example : ∃ d mx mz, qcCode 2 true (7 : ℕ) coeffTwo (.seq [6, 6]) [⟨1, [(0, 3)]⟩, ⟨1, [(1, 1)]⟩, ⟨1, [(1, 2)]⟩]
      [⟨1, [(1, 3)]⟩, ⟨1, [(0, 1)]⟩, ⟨1, [(0, 2)]⟩] = some (some ⟨d, mx, mz⟩) ∧
    d.map Prod.snd = [6, 6] ∧ ∀ x ∈ mx, ∀ z ∈ mz, ∑ q, x q * z q = 0 :=
  C51_constructor_partial (C := fun c => (c : ZMod 2)) (Or.inl (by decide +kernel)) (by decide +kernel) (by decide +kernel) (by decide +kernel)
    (by decide +kernel) 0

/-! ## C52: layout -/

theorem nodeLabel_index (rx ry : ℕ) (node : Node) (l : Sector × ℕ × ℕ) (h : nodeLabel node rx ry = some l) :
    0 < ry ∧ 0 < rx ∧ l.2.1 < rx ∧ l.2.2 < ry ∧
    (node.isData = true ↔ l.1 = .L ∨ l.1 = .R) ∧ 0 ≤ node.index ∧ node.index < 2 * rx * ry ∧
    node.index = ((if l.1 = .R ∨ l.1 = .Z then rx * ry else 0) + l.2.1 * ry + l.2.2 : ℕ) := by
  unfold nodeLabel at h
  by_cases h1 : 0 ≤ node.index ∧ node.index < 2 * rx * ry
  swap
  · rw [if_neg h1] at h; cases h
  rw [if_pos h1] at h
  obtain ⟨k, hk⟩ := Int.eq_ofNat_of_zero_le h1.1
  rw [hk] at h1 h
  have hk2 : k < 2 * rx * ry := by exact_mod_cast h1.2
  have hry : 0 < ry := Nat.pos_of_ne_zero fun h => by rw [h] at hk2; omega
  have hrx : 0 < rx := Nat.pos_of_ne_zero fun h => by rw [h] at hk2; omega
  simp only [Int.ofNat_eq_natCast, Int.toNat_natCast] at h
  have hss : k / (rx * ry) < 2 := by
    rw [Nat.div_lt_iff_lt_mul (Nat.mul_pos hrx hry), ← mul_assoc]; exact hk2
  have hdm : k = k / (rx * ry) * (rx * ry) + k / ry % rx * ry + k % ry := by
    have h1 := Nat.div_add_mod k ry
    have h2 := Nat.div_add_mod (k / ry) rx
    rw [Nat.div_div_eq_div_mul, mul_comm ry rx] at h2
    calc k = ry * (k / ry) + k % ry := h1.symm
      _ = ry * (rx * (k / (rx * ry)) + k / ry % rx) + k % ry := by rw [h2]
      _ = _ := by ring
  have hl := Option.some.inj h
  refine ⟨hry, hrx, ?_, ?_, ?_, by rw [hk]; exact h1.1, by rw [hk]; exact h1.2, ?_⟩
  · rw [← hl]; exact Nat.mod_lt _ hrx
  · rw [← hl]; exact Nat.mod_lt _ hry
  · rw [← hl]
    cases node.isData <;> by_cases hs : k / (rx * ry) = 0 <;> simp [hs]
  · rw [hk]
    congr 1
    obtain h0 | h0 : k / (rx * ry) = 0 ∨ k / (rx * ry) = 1 :=
      Nat.le_one_iff_eq_zero_or_eq_one.1 (Nat.le_of_lt_succ hss)
    · rw [h0] at hdm
      cases hnd : node.isData <;> simp only [hnd, h0] at hl <;> rw [← hl] <;> simp <;> omega
    · rw [h0] at hdm
      cases hnd : node.isData <;> simp only [hnd, h0] at hl <;> rw [← hl] <;> simp <;> omega

/-- C52: labels identify qubits: a node of the code has a label with a sector for its kind and coordinates on the torus,
different nodes have different labels, and every label occurs. -/
theorem C52_labels (rx ry : ℕ) :
    (∀ node l, nodeLabel node rx ry = some l → l.2.1 < rx ∧ l.2.2 < ry ∧
      (node.isData = true ↔ l.1 = .L ∨ l.1 = .R) ∧ 0 ≤ node.index ∧ node.index < 2 * rx * ry) ∧
    (∀ node : Node, 0 ≤ node.index → node.index < 2 * rx * ry → (nodeLabel node rx ry).isSome) ∧
    (∀ node node' l, nodeLabel node rx ry = some l → nodeLabel node' rx ry = some l → node = node') ∧
    ∀ s a b, a < rx → b < ry → ∃ node, nodeLabel node rx ry = some (s, a, b) := by
  refine ⟨?_, ?_, ?_, ?_⟩
  · intro node l h
    obtain ⟨-, -, h1, h2, h3, h4, h5, -⟩ := nodeLabel_index rx ry node l h
    exact ⟨h1, h2, h3, h4, h5⟩
  · intro node h1 h2
    simp [nodeLabel, h1, h2]
  · intro node node' l h h'
    obtain ⟨-, -, -, -, h3, -, -, h5⟩ := nodeLabel_index rx ry node l h
    obtain ⟨-, -, -, -, h3', -, -, h5'⟩ := nodeLabel_index rx ry node' l h'
    cases node
    cases node'
    simp only [Node.mk.injEq] at *
    refine ⟨by rw [h5, h5'], ?_⟩
    exact Bool.eq_iff_iff.2 (h3.trans h3'.symm)
  · intro s a b ha hb
    have hab : a * ry + b < rx * ry := by
      calc a * ry + b < a * ry + ry := by omega
        _ = (a + 1) * ry := by ring
        _ ≤ rx * ry := Nat.mul_le_mul_right _ ha
    have hP : 0 < rx * ry := by omega
    have hb0 : 0 < ry := by omega
    refine ⟨⟨((if s = .R ∨ s = .Z then rx * ry else 0) + (a * ry + b) : ℕ), decide (s = .L ∨ s = .R)⟩, ?_⟩
    unfold nodeLabel
    have h1 : (a * ry + b) / (rx * ry) = 0 := Nat.div_eq_of_lt hab
    have h2 : (a * ry + b) / ry = a := by
      rw [mul_comm, Nat.mul_add_div hb0, Nat.div_eq_of_lt hb, add_zero]
    have h3 : (a * ry + b) % ry = b := by
      rw [mul_comm, Nat.mul_add_mod, Nat.mod_eq_of_lt hb]
    have h4 : (rx * ry + (a * ry + b)) / ry = rx + a := by
      rw [mul_comm rx, Nat.mul_add_div hb0, h2]
    have h5 : (rx * ry + (a * ry + b)) % ry = b := by
      rw [mul_comm rx, Nat.mul_add_mod, h3]
    have h6 : (rx * ry + (a * ry + b)) / (rx * ry) = 1 := by
      rw [Nat.add_div_left _ hP, h1]
    have h7 : rx * ry + (a * ry + b) < 2 * rx * ry := by rw [mul_assoc]; omega
    have h8 : a * ry + b < 2 * rx * ry := by rw [mul_assoc]; omega
    have hi : ∀ k : ℕ, k < 2 * rx * ry → (0 ≤ (k : ℤ) ∧ (k : ℤ) < 2 * rx * ry) := fun k hk => ⟨by omega, by exact_mod_cast hk⟩
    cases s
    · simp only [reduceCtorEq, or_self, if_false, zero_add, Int.toNat_natCast, true_or, decide_true]
      rw [if_pos (hi _ h8)]
      simp [h1, h2, h3, Nat.mod_eq_of_lt ha]
    · simp only [reduceCtorEq, true_or, if_true, Int.toNat_natCast, or_true, decide_true]
      rw [if_pos (hi _ h7)]
      simp [h4, h5, h6, Nat.add_mod_left, Nat.mod_eq_of_lt ha]
    · simp only [reduceCtorEq, or_self, if_false, zero_add, Int.toNat_natCast, decide_false]
      rw [if_pos (hi _ h8)]
      simp [h1, h2, h3, Nat.mod_eq_of_lt ha]
    · simp only [reduceCtorEq, or_true, if_true, Int.toNat_natCast, or_self, decide_false]
      rw [if_pos (hi _ h7)]
      simp [h4, h5, h6, Nat.add_mod_left, Nat.mod_eq_of_lt ha]

/-- C52: the positions of the qubits, in both layouts, are exactly the points of the `2 R_x` by `2 R_y` grid, each one taken by
one qubit. -/
theorem C52_positions (rx ry : ℕ) (folded : Bool) :
    (∀ l, l.2.1 < rx → l.2.2 < ry → 0 ≤ (qubitPos l folded rx ry).1 ∧ (qubitPos l folded rx ry).1 < 2 * rx ∧
      0 ≤ (qubitPos l folded rx ry).2 ∧ (qubitPos l folded rx ry).2 < 2 * ry) ∧
    (∀ l l', l.2.1 < rx → l.2.2 < ry → l'.2.1 < rx → l'.2.2 < ry →
      qubitPos l folded rx ry = qubitPos l' folded rx ry → l = l') ∧
    ∀ x y : ℕ, x < 2 * rx → y < 2 * ry → ∃ l, l.2.1 < rx ∧ l.2.2 < ry ∧ qubitPos l folded rx ry = ((x : ℤ), (y : ℤ)) := by
  refine ⟨?_, ?_, ?_⟩
  · rintro ⟨s, a, b⟩ ha hb
    unfold qubitPos foldCoord
    cases s <;> cases folded <;> simp only [Bool.false_eq_true, if_false, if_true, reduceCtorEq, or_self, true_or, or_true] <;>
      refine ⟨?_, ?_, ?_, ?_⟩ <;> simp only at ha hb <;> (try split_ifs) <;> push_cast <;> omega
  · rintro ⟨s, a, b⟩ ⟨s', a', b'⟩ ha hb ha' hb' h
    unfold qubitPos foldCoord at h
    simp only [Prod.mk.injEq]
    cases s <;> cases s' <;> cases folded <;>
      simp only [Bool.false_eq_true, if_false, if_true, reduceCtorEq, or_self, true_or, or_true, Prod.mk.injEq] at ha hb ha' hb' h ⊢ <;>
      obtain ⟨h1, h2⟩ := h <;> (try split_ifs at h1) <;> (try split_ifs at h2) <;> push_cast at h1 h2 <;> first | omega | (refine ⟨trivial, ?_, ?_⟩ <;> omega)
  · have hun : ∀ x y : ℕ, x < 2 * rx → y < 2 * ry → ∃ l : Sector × ℕ × ℕ, l.2.1 < rx ∧ l.2.2 < ry ∧
        (2 * l.2.1 + if l.1 = .R ∨ l.1 = .X then 1 else 0) = x ∧ (2 * l.2.2 + if l.1 = .L ∨ l.1 = .X then 1 else 0) = y := by
      intro x y hx hy
      rcases Nat.mod_two_eq_zero_or_one x with h1 | h1 <;> rcases Nat.mod_two_eq_zero_or_one y with h2 | h2
      · refine ⟨(.Z, x / 2, y / 2), ?_⟩; simp; omega
      · refine ⟨(.L, x / 2, y / 2), ?_⟩; simp; omega
      · refine ⟨(.R, x / 2, y / 2), ?_⟩; simp; omega
      · refine ⟨(.X, x / 2, y / 2), ?_⟩; simp; omega
    have hfold : ∀ n x : ℕ, x < 2 * n → ∃ x', x' < 2 * n ∧ foldCoord n x' = x := by
      intro n x hx
      unfold foldCoord
      rcases Nat.mod_two_eq_zero_or_one x with h1 | h1
      · exact ⟨x / 2, by omega, by rw [if_pos (by omega)]; omega⟩
      · exact ⟨2 * n - 1 - x / 2, by omega, by rw [if_neg (by omega)]; omega⟩
    intro x y hx hy
    cases folded
    · obtain ⟨l, h1, h2, h3, h4⟩ := hun x y hx hy
      refine ⟨l, h1, h2, ?_⟩
      simp [qubitPos, h3, h4]
    · obtain ⟨x', hx', hfx⟩ := hfold rx x hx
      obtain ⟨y', hy', hfy⟩ := hfold ry y hy
      obtain ⟨l, h1, h2, h3, h4⟩ := hun x' y' hx' hy'
      refine ⟨l, h1, h2, ?_⟩
      simp only [qubitPos, h3, h4, if_true, hfx, hfy]

/-- C52: in the folded layout, columns and rows that are cyclically adjacent in the canonical layout are at most two apart. -/
theorem C52_folded (rx ry : ℕ) (l l' : Sector × ℕ × ℕ) (h1 : l.2.1 < rx) (h2 : l.2.2 < ry) (h1' : l'.2.1 < rx)
    (h2' : l'.2.2 < ry) :
    ((qubitPos l' false rx ry).1 = ((qubitPos l false rx ry).1 + 1) % (2 * rx) →
      |(qubitPos l' true rx ry).1 - (qubitPos l true rx ry).1| ≤ 2) ∧
    ((qubitPos l' false rx ry).2 = ((qubitPos l false rx ry).2 + 1) % (2 * ry) →
      |(qubitPos l' true rx ry).2 - (qubitPos l true rx ry).2| ≤ 2) := by
  have key : ∀ n x y : ℕ, x < 2 * n → y < 2 * n → (y : ℤ) = (x + 1) % (2 * n) → |foldCoord n y - foldCoord n x| ≤ 2 := by
    intro n x y hx hy h
    have hy' : (y : ℤ) = x + 1 ∨ (y = 0 ∧ x + 1 = 2 * n) := by
      by_cases hc : x + 1 = 2 * n
      · right
        refine ⟨?_, hc⟩
        rw [show (x : ℤ) + 1 = 2 * n by exact_mod_cast hc, Int.emod_self] at h
        exact_mod_cast h
      · left
        rw [h, Int.emod_eq_of_lt (by omega) (by omega)]
    unfold foldCoord
    rw [abs_le]
    split_ifs <;> omega
  have hb : ∀ (a n : ℕ) (p : Prop) [Decidable p], a < n → 2 * a + (if p then 1 else 0) < 2 * n := by
    intro a n p _ h
    split_ifs <;> omega
  constructor
  · intro h
    exact key rx _ _ (hb _ _ _ h1) (hb _ _ _ h1') h
  · intro h
    exact key ry _ _ (hb _ _ _ h2) (hb _ _ _ h2') h

example : nodeLabel ⟨29, true⟩ 4 5 = some (.R, 1, 4) ∧ qubitPos (.R, 1, 4) false 4 5 = (3, 8) ∧
    qubitPos (.R, 1, 4) true 4 5 = (6, 3) := by decide +kernel

/-- The entry of the full parity check matrix: rows of the first kind, then rows of the second kind. -/
def fullEntry {N : ℕ} (mx mz : Rows F N) (i j : ℤ) : F :=
  if i.toNat < mx.length then matEntry mx i.toNat j.toNat else matEntry mz (i.toNat - mx.length) j.toNat

/-- The sum of the coefficients of the monomials that lead from one plaquette to another. -/
def stepCoeff (C : ℤ → F) (sign : ℤ) (x y : S) (rx ry : ℕ) (poly : List (Term S)) (a b a' b' : ℕ) : F :=
  (poly.map fun t => if (a' : ℤ) = (a + sign * exponentOf t.exps x) % rx ∧ (b' : ℤ) = (b + sign * exponentOf t.exps y) % ry
    then C t.coeff else 0).sum

/-- C52: which data qubits a check qubit of a bivariate bicycle code addresses, in terms of their labels. -/
theorem C52_addresses {drop : Bool} {coeffOf : ℤ → Option F} {C : ℤ → F} {x y : S} {rx ry : ℕ} {polyA polyB : List (Term S)}
    (hA : QCInput drop coeffOf C [(x, rx), (y, ry)] polyA) (hB : QCInput drop coeffOf C [(x, rx), (y, ry)] polyB)
    {mx mz} (hm : qcMatrices drop coeffOf [(x, rx), (y, ry)] polyA polyB = some (mx, mz))
    {i j : ℤ} {s s' : Sector} {a b a' b' : ℕ} (hi : nodeLabel ⟨i, false⟩ rx ry = some (s, a, b))
    (hj : nodeLabel ⟨j, true⟩ rx ry = some (s', a', b')) :
    (s = .X → s' = .L → fullEntry mx mz i j = stepCoeff C 1 x y rx ry polyA a b a' b') ∧
    (s = .X → s' = .R → fullEntry mx mz i j = stepCoeff C 1 x y rx ry polyB a b a' b') ∧
    (s = .Z → s' = .L → fullEntry mx mz i j = stepCoeff C (-1) x y rx ry polyB a b a' b') ∧
    (s = .Z → s' = .R → fullEntry mx mz i j = - stepCoeff C (-1) x y rx ry polyA a b a' b') := by
  obtain ⟨mx', mz', hm', hlx, hlz, -, hent⟩ := C51_code hA hB
  rw [hm] at hm'
  obtain ⟨rfl, rfl⟩ : mx = mx' ∧ mz = mz' := by simpa using hm'
  have hprod : (([(x, rx), (y, ry)] : List (S × ℕ)).map Prod.snd).prod = rx * ry := by simp
  have hcoord : ∀ a b, a < rx → b < ry →
      a * ry + b < rx * ry ∧ torusCoords (([(x, rx), (y, ry)] : List (S × ℕ)).map Prod.snd) (a * ry + b) = [a, b] := by
    intro a b ha hb
    have hb0 : 0 < ry := by omega
    refine ⟨?_, ?_⟩
    · calc a * ry + b < a * ry + ry := by omega
        _ = (a + 1) * ry := by ring
        _ ≤ rx * ry := Nat.mul_le_mul_right _ ha
    · have h2 : (a * ry + b) / ry = a := by
        rw [mul_comm, Nat.mul_add_div hb0, Nat.div_eq_of_lt hb, add_zero]
      have h3 : (a * ry + b) % ry = b := by
        rw [mul_comm, Nat.mul_add_mod, Nat.mod_eq_of_lt hb]
      simp [torusCoords, h2, h3, Nat.mod_eq_of_lt ha, Nat.mod_eq_of_lt hb]
  obtain ⟨-, -, ha, hb, -, -, -, hii⟩ := nodeLabel_index rx ry _ _ hi
  obtain ⟨-, -, ha', hb', -, -, -, hjj⟩ := nodeLabel_index rx ry _ _ hj
  obtain ⟨hlt, hc⟩ := hcoord a b ha hb
  obtain ⟨hlt', hc'⟩ := hcoord a' b' ha' hb'
  have hrx : (rx : ℤ) ≠ 0 := by simp only at ha; omega
  have hry : (ry : ℤ) ≠ 0 := by simp only at hb; omega
  have hE := hent ⟨a * ry + b, by rw [hprod]; exact hlt⟩ ⟨a' * ry + b', by rw [hprod]; exact hlt'⟩
  have hstep : ∀ (sign : ℤ) (poly : List (Term S)),
      (poly.map fun t => if [a', b'] = movedBy sign [(x, rx), (y, ry)] [a, b] t.exps then C t.coeff else 0).sum =
        stepCoeff C sign x y rx ry poly a b a' b' := by
    intro sign poly
    unfold stepCoeff
    congr 1
    refine List.map_congr_left fun t _ => if_congr ?_ rfl rfl
    have h1 := Int.emod_nonneg ((a : ℤ) + sign * exponentOf t.exps x) hrx
    have h2 := Int.emod_nonneg ((b : ℤ) + sign * exponentOf t.exps y) hry
    simp only [movedBy, List.zipWith_cons_cons, List.zipWith_nil_right, List.cons.injEq, and_true]
    omega
  simp only [hc, hc', hstep, hprod] at hE
  replace hlx := hlx.trans hprod
  simp only at hii hjj
  unfold fullEntry
  rw [hlx, hii, hjj, Int.toNat_natCast, Int.toNat_natCast]
  refine ⟨?_, ?_, ?_, ?_⟩
  · rintro rfl rfl
    simp only [reduceCtorEq, or_self, if_false, zero_add]
    rw [if_pos hlt]
    exact hE.1
  · rintro rfl rfl
    simp only [reduceCtorEq, or_self, if_false, zero_add, true_or, if_true]
    rw [if_pos hlt, add_assoc]
    exact hE.2.1
  · rintro rfl rfl
    simp only [reduceCtorEq, or_self, if_false, zero_add, or_true, if_true]
    rw [if_neg (by omega), add_assoc, Nat.add_sub_cancel_left]
    exact hE.2.2.1
  · rintro rfl rfl
    simp only [reduceCtorEq, true_or, or_true, if_true]
    rw [if_neg (by omega), add_assoc, Nat.add_sub_cancel_left, add_assoc]
    exact hE.2.2.2

/-- A concrete case: the X check of plaquette `(1, 2)` addresses the qubit L of plaquette `(2, 0)` through `x y`. -/
example : nodeLabel ⟨5, false⟩ 3 3 = some (.X, 1, 2) ∧ nodeLabel ⟨6, true⟩ 3 3 = some (.L, 2, 0) ∧
    stepCoeff (fun c => (c : ZMod 2)) 1 (0 : ℕ) 1 3 3 [⟨1, []⟩, ⟨1, [(0, 1), (1, 1)]⟩] 1 2 2 0 = 1 := by decide +kernel

/-! ## C53: arithmetic on the torus -/

theorem dvd_mul_iff_div_gcd {n : ℕ} (hn : 0 < n) (v : ℤ) (k : ℤ) : (n : ℤ) ∣ k * v ↔ ((n / Int.gcd v n : ℕ) : ℤ) ∣ k := by
  have hg : 0 < Int.gcd v n := Int.gcd_pos_of_ne_zero_right _ (by omega)
  obtain ⟨g, n', v', hg', hco, hv, hn'⟩ : ∃ (g : ℕ) (n' : ℕ) (v' : ℤ), g = Int.gcd v n ∧ IsCoprime (n' : ℤ) v' ∧ v = v' * g ∧ n = n' * g := by
    obtain ⟨v', hv⟩ := Int.gcd_dvd_left (a := v) (b := n)
    obtain ⟨n', hn'⟩ : Int.gcd v n ∣ n := by exact_mod_cast Int.gcd_dvd_right (a := v) (b := n)
    refine ⟨Int.gcd v n, n', v', rfl, ?_, by rw [mul_comm]; exact hv, by rw [mul_comm]; exact hn'⟩
    rw [Int.isCoprime_iff_gcd_eq_one, Int.gcd_comm]
    have h := Int.gcd_div_gcd_div_gcd hg
    have hgz : ((Int.gcd v n : ℕ) : ℤ) ≠ 0 := by exact_mod_cast hg.ne'
    have e1 : v / (Int.gcd v n : ℤ) = v' := by
      conv_lhs => arg 1; rw [hv]
      exact Int.mul_ediv_cancel_left _ hgz
    have e2 : (n : ℤ) / (Int.gcd v n : ℤ) = n' := by
      have : (n : ℤ) = (Int.gcd v n : ℤ) * n' := by exact_mod_cast hn'
      conv_lhs => arg 1; rw [this]
      exact Int.mul_ediv_cancel_left _ hgz
    rwa [e1, e2] at h
  rw [← hg'] at hg ⊢
  have hgz : (g : ℤ) ≠ 0 := by exact_mod_cast hg.ne'
  have hdiv : n / g = n' := by rw [hn']; exact Nat.mul_div_cancel _ hg
  rw [hdiv, hv, hn', Nat.cast_mul, ← mul_assoc, mul_dvd_mul_iff_right hgz]
  exact ⟨fun h => hco.dvd_of_dvd_mul_right h, fun h => Dvd.dvd.mul_right h _⟩

theorem torusOrder_dvd {rx ry : ℕ} (hx : 0 < rx) (hy : 0 < ry) (v : ℤ × ℤ) (k : ℤ) :
    (torusOrder rx ry v : ℤ) ∣ k ↔ k * v.1 % rx = 0 ∧ k * v.2 % ry = 0 := by
  rw [← Int.dvd_iff_emod_eq_zero, ← Int.dvd_iff_emod_eq_zero, dvd_mul_iff_div_gcd hx, dvd_mul_iff_div_gcd hy]
  unfold torusOrder
  have : ∀ a b : ℕ, a * b / Nat.gcd a b = Nat.lcm a b := fun a b => rfl
  simp only [this]
  rw [Int.natCast_dvd, Int.natCast_dvd, Int.natCast_dvd, Nat.lcm_dvd_iff]

theorem torusOrder_pos {rx ry : ℕ} (hx : 0 < rx) (hy : 0 < ry) (v : ℤ × ℤ) : 0 < torusOrder rx ry v := by
  refine Nat.pos_of_ne_zero fun h => ?_
  have h1 := (torusOrder_dvd hx hy v (rx * ry)).2
    ⟨by rw [mul_assoc]; exact Int.mul_emod_right _ _, by rw [mul_comm (rx : ℤ), mul_assoc]; exact Int.mul_emod_right _ _⟩
  rw [h, Nat.cast_zero, zero_dvd_iff] at h1
  have : 0 < rx * ry := Nat.mul_pos hx hy
  have : (rx * ry : ℕ) = 0 := by exact_mod_cast h1
  omega

/-- C53: `get_order` is the least positive multiple that brings the vector to the origin of the torus. -/
theorem C53_order {rx ry : ℕ} (hx : 0 < rx) (hy : 0 < ry) (v : ℤ × ℤ) :
    IsLeast {k : ℕ | 0 < k ∧ (k : ℤ) * v.1 % rx = 0 ∧ (k : ℤ) * v.2 % ry = 0} (torusOrder rx ry v) := by
  constructor
  · exact ⟨torusOrder_pos hx hy v, (torusOrder_dvd hx hy v _).1 dvd_rfl⟩
  · rintro k ⟨hk, h⟩
    exact Nat.le_of_dvd hk (by exact_mod_cast (torusOrder_dvd hx hy v k).2 h)

example : torusOrder 6 4 (2, 1) = 12 := by decide +kernel

theorem torusOrder_mod {rx ry : ℕ} (hx : 0 < rx) (hy : 0 < ry) (v : ℤ × ℤ) (k : ℤ) :
    k % torusOrder rx ry v * v.1 ≡ k * v.1 [ZMOD rx] ∧ k % torusOrder rx ry v * v.2 ≡ k * v.2 [ZMOD ry] := by
  have h := (torusOrder_dvd hx hy v (k - k % torusOrder rx ry v)).1 Int.dvd_self_sub_emod
  rw [sub_mul, sub_mul] at h
  exact ⟨(Int.modEq_iff_dvd.2 (Int.dvd_of_emod_eq_zero h.1)), (Int.modEq_iff_dvd.2 (Int.dvd_of_emod_eq_zero h.2))⟩

/-- C53: `modular_inverse` returns numbers below the orders that solve the equations, and fails only if no integers solve
them. -/
theorem C53_modular_inverse {rx ry : ℕ} (hx : 0 < rx) (hy : 0 < ry) (u v : ℤ × ℤ) (aa bb : ℤ) :
    (∀ p, modularInverse rx ry (u, v) aa bb = some p → p.1 < torusOrder rx ry u ∧ p.2 < torusOrder rx ry v ∧
      p.1 * u.1 + p.2 * v.1 ≡ aa [ZMOD rx] ∧ p.1 * u.2 + p.2 * v.2 ≡ bb [ZMOD ry]) ∧
    (modularInverse rx ry (u, v) aa bb = none → ∀ m n : ℤ,
      ¬ (m * u.1 + n * v.1 ≡ aa [ZMOD rx] ∧ m * u.2 + n * v.2 ≡ bb [ZMOD ry])) := by
  constructor
  · intro p h
    unfold modularInverse at h
    have h1 := List.mem_of_find?_eq_some h
    have h2 := List.find?_some h
    simp only [List.mem_flatMap, List.mem_map, List.mem_range] at h1
    obtain ⟨x, hx, y, hy, rfl⟩ := h1
    simp only [torusPoint, decide_eq_true_eq, Prod.mk.injEq] at h2
    exact ⟨hx, hy, h2.1.symm, h2.2.symm⟩
  · rintro h m n ⟨h1, h2⟩
    unfold modularInverse at h
    rw [List.find?_eq_none] at h
    have hm : (0 : ℤ) < torusOrder rx ry u := by exact_mod_cast torusOrder_pos hx hy u
    have hn : (0 : ℤ) < torusOrder rx ry v := by exact_mod_cast torusOrder_pos hx hy v
    have hm0 := Int.emod_nonneg m hm.ne'
    have hn0 := Int.emod_nonneg n hn.ne'
    have hml := Int.emod_lt_of_pos m hm
    have hnl := Int.emod_lt_of_pos n hn
    refine h ((m % torusOrder rx ry u).toNat, (n % torusOrder rx ry v).toNat) ?_ ?_
    · simp only [List.mem_flatMap, List.mem_map, List.mem_range, Prod.mk.injEq]
      exact ⟨_, by omega, _, by omega, rfl, rfl⟩
    · simp only [torusPoint, decide_eq_true_eq, Prod.mk.injEq, Int.toNat_of_nonneg hm0, Int.toNat_of_nonneg hn0]
      obtain ⟨e1, e2⟩ := torusOrder_mod hx hy u m
      obtain ⟨e3, e4⟩ := torusOrder_mod hx hy v n
      exact ⟨((e1.add e3).trans h1).symm, ((e2.add e4).trans h2).symm⟩

example : modularInverse 6 4 ((1, 1), (0, 1)) 1 0 = some (1, 3) := by decide +kernel

/-- C53: `is_valid_basis` holds exactly if every plaquette is, in one way, a combination of the two vectors with factors
below their orders. -/
theorem C53_valid_basis {rx ry : ℕ} (hx : 0 < rx) (hy : 0 < ry) (u v : ℤ × ℤ) :
    isValidBasis rx ry u v = true ↔ ∀ x y : ℕ, x < rx → y < ry →
      ∃! p : ℕ × ℕ, p.1 < torusOrder rx ry u ∧ p.2 < torusOrder rx ry v ∧
        p.1 * u.1 + p.2 * v.1 ≡ x [ZMOD rx] ∧ p.1 * u.2 + p.2 * v.2 ≡ y [ZMOD ry] := by
  set ou := torusOrder rx ry u with hou
  set ov := torusOrder rx ry v with hov
  let f : ℕ × ℕ → ℤ × ℤ := fun p => torusPoint rx ry u v p.1 p.2
  let s : Finset (ℕ × ℕ) := Finset.range ou ×ˢ Finset.range ov
  let t : Finset (ℤ × ℤ) := Finset.Ico (0 : ℤ) rx ×ˢ Finset.Ico (0 : ℤ) ry
  have hs : s.card = ou * ov := by simp [s]
  have ht : t.card = rx * ry := by simp [t]
  have hmaps : ∀ p, f p ∈ t := by
    intro p
    simp only [f, t, torusPoint, Finset.mem_product, Finset.mem_Ico]
    exact ⟨⟨Int.emod_nonneg _ (by omega), Int.emod_lt_of_pos _ (by omega)⟩, Int.emod_nonneg _ (by omega), Int.emod_lt_of_pos _ (by omega)⟩
  have hf : ∀ (p : ℕ × ℕ) (x y : ℕ), x < rx → y < ry → (f p = ((x : ℤ), (y : ℤ)) ↔
      p.1 * u.1 + p.2 * v.1 ≡ x [ZMOD rx] ∧ p.1 * u.2 + p.2 * v.2 ≡ y [ZMOD ry]) := by
    intro p x y hx' hy'
    simp only [f, torusPoint, Prod.mk.injEq, Int.ModEq]
    rw [Int.emod_eq_of_lt (a := (x : ℤ)) (by omega) (by omega), Int.emod_eq_of_lt (a := (y : ℤ)) (by omega) (by omega)]
  have hvalid : isValidBasis rx ry u v = true ↔ ou * ov = rx * ry ∧ Set.SurjOn f s t := by
    have h2 : 2 * rx * ry / 2 = rx * ry := by rw [mul_assoc, Nat.mul_div_cancel_left _ (by omega)]
    unfold isValidBasis
    rw [h2, ← hou, ← hov]
    by_cases hc : ou * ov = rx * ry
    · rw [if_neg (by simpa using hc)]
      simp only [List.all_eq_true, List.mem_range, decide_eq_true_eq, List.mem_flatMap, List.mem_map, hc, true_and]
      constructor
      · rintro h ⟨x, y⟩ hxy
        simp only [t, Finset.coe_product, Finset.coe_Ico, Set.mem_prod, Set.mem_Ico] at hxy
        obtain ⟨a, ha, b, hb, hab⟩ := h x.toNat (by omega) y.toNat (by omega)
        refine ⟨(a, b), by simp [s, ha, hb], ?_⟩
        rw [Int.toNat_of_nonneg hxy.1.1, Int.toNat_of_nonneg hxy.2.1] at hab
        exact hab
      · intro h x hx' y hy'
        obtain ⟨p, hp, hfp⟩ := h (show ((x : ℤ), (y : ℤ)) ∈ (t : Set (ℤ × ℤ)) by simp [t, hx', hy'])
        simp only [s, Finset.coe_product, Finset.coe_range, Set.mem_prod, Set.mem_Iio] at hp
        exact ⟨p.1, hp.1, p.2, hp.2, hfp⟩
    · rw [if_pos (by simpa using hc)]
      simp [hc]
  rw [hvalid]
  constructor
  · rintro ⟨hc, hsurj⟩ x y hx' hy'
    have hinj : Set.InjOn f s := Finset.injOn_of_surjOn_of_card_le f (fun p _ => hmaps p) hsurj (by rw [hs, ht, hc])
    obtain ⟨p, hp, hfp⟩ := hsurj (show ((x : ℤ), (y : ℤ)) ∈ (t : Set (ℤ × ℤ)) by simp [t, hx', hy'])
    have hp' := hp
    simp only [s, Finset.coe_product, Finset.coe_range, Set.mem_prod, Set.mem_Iio] at hp'
    refine ⟨p, ⟨hp'.1, hp'.2, (hf p x y hx' hy').1 hfp⟩, ?_⟩
    rintro q ⟨h1, h2, h3⟩
    refine hinj (by simp [s, h1, h2]) hp ?_
    rw [hfp]
    exact (hf q x y hx' hy').2 h3
  · intro h
    have hsurj : Set.SurjOn f s t := by
      rintro ⟨x, y⟩ hxy
      simp only [t, Finset.coe_product, Finset.coe_Ico, Set.mem_prod, Set.mem_Ico] at hxy
      obtain ⟨p, ⟨h1, h2, h3⟩, -⟩ := h x.toNat y.toNat (by omega) (by omega)
      refine ⟨p, by simp [s, h1, h2], ?_⟩
      have := (hf p x.toNat y.toNat (by omega) (by omega)).2 h3
      rwa [Int.toNat_of_nonneg hxy.1.1, Int.toNat_of_nonneg hxy.2.1] at this
    refine ⟨?_, hsurj⟩
    rw [← hs, ← ht]
    refine Finset.card_nbij f (fun p _ => hmaps p) ?_ hsurj
    intro p hp q hq hpq
    have hfp := hmaps p
    simp only [t, Finset.mem_product, Finset.mem_Ico] at hfp
    simp only [s, Finset.coe_product, Finset.coe_range, Set.mem_prod, Set.mem_Iio] at hp hq
    obtain ⟨r, -, hr⟩ := h (f p).1.toNat (f p).2.toNat (by omega) (by omega)
    have e : f p = (((f p).1.toNat : ℤ), ((f p).2.toNat : ℤ)) := by
      rw [Int.toNat_of_nonneg hfp.1.1, Int.toNat_of_nonneg hfp.2.1]
    have hp1 := hr p ⟨hp.1, hp.2, (hf p _ _ (by omega) (by omega)).1 e⟩
    have hq1 := hr q ⟨hq.1, hq.2, (hf q _ _ (by omega) (by omega)).1 (by rw [← hpq]; exact e)⟩
    rw [hp1, hq1]

example : isValidBasis 6 6 (1, 1) (0, 1) = true ∧ isValidBasis 6 6 (2, 0) (0, 1) = false ∧ isValidBasis 6 6 (1, 1) (1, 5) = false := by
  decide +kernel

/-! ## C53: canonical forms -/

theorem canonicalExponent_emod (e : ℤ) (n : ℕ) : canonicalExponent e n % n = e % n := by
  unfold canonicalExponent
  split_ifs
  · rw [Int.sub_emod_right, Int.emod_emod]
  · rw [Int.emod_emod]

/-- C53: the exponents of the canonical form lie between `-order/2` (excluded) and `order/2`, and differ from the given ones
by multiples of the order. -/
theorem C53_canonical_exponent (e : ℤ) {n : ℕ} (hn : 0 < n) :
    canonicalExponent e n ≡ e [ZMOD n] ∧ -(n : ℤ) < 2 * canonicalExponent e n ∧ 2 * canonicalExponent e n ≤ n := by
  refine ⟨canonicalExponent_emod e n, ?_⟩
  have h1 := Int.emod_nonneg e (show (n : ℤ) ≠ 0 by omega)
  have h2 := Int.emod_lt_of_pos e (show (0 : ℤ) < n by omega)
  unfold canonicalExponent
  split_ifs <;> omega

theorem exponentOf_lookup {exps : List (S × ℤ)} (h : (exps.map Prod.fst).Nodup) (s : S) :
    exponentOf exps s = (exps.lookup s).getD 0 := by
  unfold exponentOf
  induction exps with
  | nil => rfl
  | cons e exps ih =>
    obtain ⟨s', k⟩ := e
    rw [List.map_cons, List.nodup_cons] at h
    by_cases hs : s' = s
    · subst hs
      have h0 : exps.filter (fun e => e.1 = s') = [] := by
        rw [List.filter_eq_nil_iff]
        intro e he hc
        have hc' : e.1 = s' := of_decide_eq_true hc
        exact h.1 (List.mem_map.2 ⟨e, he, hc'⟩)
      rw [List.filter_cons_of_pos (by simp), h0]
      simp
    · rw [List.filter_cons_of_neg (by simpa using hs), ih h.2, List.lookup_cons]
      have : (s == s') = false := by simpa using fun hc => hs hc.symm
      rw [this]

theorem exponentOf_canonical {d : List (S × ℕ)} (hd : (d.map Prod.fst).Nodup) {t : Term S} (ht : (t.exps.map Prod.fst).Nodup)
    {p : S × ℕ} (hp : p ∈ d) : exponentOf (canonicalTerm d t).exps p.1 % p.2 = exponentOf t.exps p.1 % p.2 := by
  have hk : ((canonicalTerm d t).exps.map Prod.fst) = d.map Prod.fst := by
    simp [canonicalTerm, Function.comp_def]
  rw [exponentOf_lookup (by rw [hk]; exact hd), exponentOf_lookup ht]
  have : (canonicalTerm d t).exps.lookup p.1 = some (canonicalExponent ((t.exps.lookup p.1).getD 0) p.2) := by
    unfold canonicalTerm
    simp only
    generalize t.exps = es
    induction d with
    | nil => cases hp
    | cons q d ih =>
      rw [List.map_cons, List.nodup_cons] at hd
      rw [List.map_cons, List.lookup_cons]
      rcases List.mem_cons.1 hp with rfl | hp'
      · simp
      · have hne : (p.1 == q.1) = false := by
          rw [beq_eq_false_iff_ne]
          intro hc
          exact hd.1 (by rw [← hc]; exact List.mem_map_of_mem hp')
        rw [hne]
        exact ih hd.2 hp' (by simp [canonicalTerm, Function.comp_def])
  rw [this, Option.getD_some, canonicalExponent_emod]

theorem expVec_canonical {d : List (S × ℕ)} (hd : (d.map Prod.fst).Nodup) {t : Term S} (ht : (t.exps.map Prod.fst).Nodup) :
    expVec d (canonicalTerm d t).exps = expVec d t.exps := by
  unfold expVec
  refine List.map_congr_left fun p hp => ?_
  have := exponentOf_canonical hd ht hp
  exact congrArg Int.toNat this

/-- C53: a sum of at least two monomials has the same code as its canonical form, if raising the coefficients to the power of
the number of symbols does not change them (as for coefficients of `1`).  Missing is the same statement for single monomials
and other coefficients, for which it fails. -/
theorem C53_canonical_form_partial {drop : Bool} {coeffOf : ℤ → Option F} {C : ℤ → F} {d : List (S × ℕ)} {polyA polyB : List (Term S)}
    (hA : QCInput drop coeffOf C d polyA) (hB : QCInput drop coeffOf C d polyB)
    (hlA : 2 ≤ polyA.length) (hlB : 2 ≤ polyB.length)
    (hcoeff : ∀ t ∈ polyA ++ polyB, coeffOf (t.coeff ^ d.length) = coeffOf t.coeff)
    (hmon : ∀ t ∈ polyA ++ polyB, (t.exps.map Prod.fst).Nodup) :
    qcMatrices drop coeffOf d (canonicalForm d polyA) (canonicalForm d polyB) = qcMatrices drop coeffOf d polyA polyB := by
  have key : ∀ poly : List (Term S), QCInput drop coeffOf C d poly → 2 ≤ poly.length →
      (∀ t ∈ poly, coeffOf (t.coeff ^ d.length) = coeffOf t.coeff) → (∀ t ∈ poly, (t.exps.map Prod.fst).Nodup) →
      ∃ x y, evalPoly coeffOf (d.map Prod.snd).sum (symbolGens drop d) poly = some x ∧
        evalPoly coeffOf (d.map Prod.snd).sum (symbolGens drop d) (canonicalForm d poly) = some y ∧
        x.lift (arrayLift (F := F) (d.map Prod.snd)) = y.lift (arrayLift (d.map Prod.snd)) := by
    intro poly h hl hc hm
    have hargs : polyArgs poly = poly := by
      match poly, hl with
      | _ :: _ :: _, _ => rfl
    obtain ⟨x, hx, hlx⟩ := evalPoly_lift h
    obtain ⟨y, hy, hly⟩ := evalPoly_lift (drop := drop) (coeffOf := coeffOf) (C := fun c => (coeffOf c).getD 0) (d := d) (poly := canonicalForm d poly)
      ⟨h.good, h.names, by
        intro t ht e he
        rw [canonicalForm, hargs] at ht
        obtain ⟨t', -, rfl⟩ := List.mem_map.1 ht
        simp only [canonicalTerm, List.mem_map] at he
        obtain ⟨q, hq, rfl⟩ := he
        exact List.mem_map_of_mem hq, by
        intro t ht
        rw [canonicalForm, hargs] at ht
        obtain ⟨t', ht', rfl⟩ := List.mem_map.1 ht
        simp only [canonicalTerm]
        rw [hc t' ht', h.coeff t' ht', Option.getD_some]⟩
    refine ⟨x, y, hx, hy, ?_⟩
    rw [hlx, hly, canonicalForm, hargs, List.map_map]
    congr 1
    refine List.map_congr_left fun t ht => ?_
    have hsm : (shiftMatrix d (canonicalTerm d t) : Matrix _ _ F) = shiftMatrix d t := by
      unfold shiftMatrix
      rw [expVec_canonical h.names (hm t ht)]
    simp only [Function.comp_apply, hsm]
    congr 1
    simp only [canonicalTerm]
    rw [hc t ht, h.coeff t ht, Option.getD_some]
  obtain ⟨a, a', ha, ha', hla⟩ := key polyA hA hlA (fun t ht => hcoeff t (List.mem_append_left _ ht)) (fun t ht => hmon t (List.mem_append_left _ ht))
  obtain ⟨b, b', hb, hb', hlb⟩ := key polyB hB hlB (fun t ht => hcoeff t (List.mem_append_right _ ht)) (fun t ht => hmon t (List.mem_append_right _ ht))
  unfold qcMatrices
  rw [ha, ha', hb, hb', Option.bind_some, Option.bind_some, Option.bind_some, Option.bind_some]
  unfold liftedTranspose
  rw [hla, hlb]

example : qcMatrices true coeffTwo [((0 : ℕ), 3), (1, 4)] (canonicalForm [(0, 3), (1, 4)] [⟨1, []⟩, ⟨1, [(0, 5), (1, -7)]⟩])
      (canonicalForm [(0, 3), (1, 4)] [⟨1, []⟩, ⟨1, [(1, 2)]⟩]) =
    qcMatrices true coeffTwo [(0, 3), (1, 4)] [⟨1, []⟩, ⟨1, [(0, 5), (1, -7)]⟩] [⟨1, []⟩, ⟨1, [(1, 2)]⟩] :=
  have h : ∀ poly : List (Term ℕ), (∀ t ∈ poly, ∀ e ∈ t.exps, e.1 ∈ [0, 1]) → (∀ t ∈ poly, t.coeff = 1) →
      QCInput true coeffTwo (fun c => (c : ZMod 2)) [(0, 3), (1, 4)] poly := fun poly h1 h2 =>
    ⟨Or.inl (by decide +kernel), by decide +kernel, h1, fun t ht => by rw [h2 t ht]; decide +kernel⟩
  C53_canonical_form_partial (h _ (by decide +kernel) (by decide +kernel)) (h _ (by decide +kernel) (by decide +kernel))
    (by decide +kernel) (by decide +kernel) (by decide +kernel) (by decide +kernel)

/-- The coefficients over the field with `3` elements; others are rejected by `galois`. -/
def coeffThree (c : ℤ) : Option (ZMod 3) := if 0 ≤ c ∧ c < 3 then some c else none

private instance : Fact (Nat.Prime 5) := ⟨Nat.prime_five⟩

/-- The coefficients over the field with `5` elements. -/
def coeffFive (c : ℤ) : Option (ZMod 5) := if 0 ≤ c ∧ c < 5 then some c else none

/-- **Disagreement**: the coefficient of a term is multiplied in once per symbol, so that `1 + 2 x` becomes `1 + 4 x`.  Over
the field with three elements that is rejected, over the field with five elements it gives a different code. -/
theorem C53_coefficient_disagreement :
    canonicalForm [((0 : ℕ), 2), (1, 2)] [⟨1, []⟩, ⟨2, [(0, 1)]⟩] = [⟨1, [(0, 0), (1, 0)]⟩, ⟨4, [(0, 1), (1, 0)]⟩] ∧
    ((qcMatrices true coeffThree [((0 : ℕ), 2), (1, 2)] (canonicalForm [((0 : ℕ), 2), (1, 2)] [⟨1, []⟩, ⟨2, [(0, 1)]⟩]) [⟨1, []⟩, ⟨1, [(1, 1)]⟩]).isSome = false ∧
      (qcMatrices true coeffThree [((0 : ℕ), 2), (1, 2)] [⟨1, []⟩, ⟨2, [(0, 1)]⟩] [⟨1, []⟩, ⟨1, [(1, 1)]⟩]).isSome = true) ∧
    (qcMatrices true coeffFive [((0 : ℕ), 2), (1, 2)] (canonicalForm [((0 : ℕ), 2), (1, 2)] [⟨1, []⟩, ⟨2, [(0, 1)]⟩]) [⟨1, []⟩, ⟨1, [(1, 1)]⟩]).map
        (fun m => m.1.map List.ofFn) ≠
      (qcMatrices true coeffFive [((0 : ℕ), 2), (1, 2)] [⟨1, []⟩, ⟨2, [(0, 1)]⟩] [⟨1, []⟩, ⟨1, [(1, 1)]⟩]).map (fun m => m.1.map List.ofFn) := by
  decide +kernel

/-- **Disagreement**: the canonical form of the monomial `x y` is `x + y`, that of the symbol `x` is `0`. -/
theorem C53_monomial_disagreement :
    canonicalForm [((0 : ℕ), 5), (1, 5)] [⟨1, [(0, 1), (1, 1)]⟩] = [⟨1, [(0, 1), (1, 0)]⟩, ⟨1, [(0, 0), (1, 1)]⟩] ∧
    canonicalForm [((0 : ℕ), 5), (1, 5)] [⟨1, [(0, 1)]⟩] = [] := by
  decide +kernel

section AxiomCheck
#print axioms C51_loop_ends_iff
#print axioms C51_symbols
#print axioms C51_nontermination_disagreement
#print axioms C51_code
#print axioms C51_constructor_partial
#print axioms C51_order_one_disagreement
#print axioms C52_labels
#print axioms C52_positions
#print axioms C52_folded
#print axioms C52_addresses
#print axioms C53_order
#print axioms C53_modular_inverse
#print axioms C53_valid_basis
#print axioms C53_canonical_exponent
#print axioms C53_canonical_form_partial
#print axioms C53_coefficient_disagreement
#print axioms C53_monomial_disagreement
end AxiomCheck

/-! ### Instances of the theorems: concrete cases meet the hypotheses -/

example := C51_loop_ends_iff 7 [1, 2] (by decide) [3, 4, 5] (by decide)
example := C51_symbols 7 [1, 2] (by decide) (by decide) [3, 4, 5] (by decide) (by decide) 9
example := C52_folded 3 4 (.L, 1, 2) (.R, 2, 3) (by decide) (by decide) (by decide) (by decide)
example := C53_order (rx := 3) (ry := 4) (by decide) (by decide) (1, 2)
example := C53_modular_inverse (rx := 3) (ry := 4) (by decide) (by decide) (1, 2) (0, 1) 2 3
example := C53_valid_basis (rx := 3) (ry := 4) (by decide) (by decide) (1, 2) (0, 1)
example := C53_canonical_exponent (-5) (n := 7) (by decide)

example : True := by
  obtain ⟨⟨mx, mz⟩, hm⟩ := Option.isSome_iff_exists.1 (show (qcMatrices true coeffTwo [((0 : ℕ), 3), (1, 3)] [⟨1, []⟩, ⟨1, [(0, 1), (1, 1)]⟩]
    [⟨1, []⟩, ⟨1, [(1, 1)]⟩]).isSome = true by decide +kernel)
  have h := C52_addresses (C := fun c => (c : ZMod 2)) (i := 5) (j := 6) (s := .X) (a := 1) (b := 2) (s' := .L) (a' := 2) (b' := 0)
    ⟨Or.inl (by decide +kernel), by decide +kernel, by decide +kernel, by decide +kernel⟩
    ⟨Or.inl (by decide +kernel), by decide +kernel, by decide +kernel, by decide +kernel⟩ hm (by decide +kernel) (by decide +kernel)
  trivial

end QLDPC.Props
