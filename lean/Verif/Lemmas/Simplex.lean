import Verif.Model.Simplex
import Verif.Lemmas.ExtHamming

/-! Simplex codes: a word is produced by a shift register from its first bits. -/

set_option linter.unusedSectionVars false

namespace QLDPC

open Spec

variable {F : Type} [Field F] [DecidableEq F]

/-- `k` more bits of the shift register `b_(i+d) = b_i + b_(i+c)`, last bit first -/
def shiftRegister (c d : ℕ) : ℕ → List Bool → List Bool
  | 0, l => l
  | k + 1, l => shiftRegister c d k (((l.getD (d - 1) false) ^^ (l.getD (d - 1 - c) false)) :: l)

/-- what has to be checked of one seed -/
def seedOk (c d : ℕ) (s : List Bool) : Bool :=
  let N := 2 ^ d - 1
  let w := (shiftRegister c d (N - d) s.reverse).reverse
  decide (w.length = N) && decide (w.take d = s) &&
  decide (List.zipWith Bool.xor w (w.drop c ++ w.take c) = w.drop d ++ w.take d) &&
  (decide (s = List.replicate d false) || decide (w.countP id = 2 ^ (d - 1)))

theorem seeds2 : (productRepeat [false, true] 2).all (seedOk 1 2) = true := by decide +kernel
theorem seeds3 : (productRepeat [false, true] 3).all (seedOk 2 3) = true := by decide +kernel
theorem seeds4 : (productRepeat [false, true] 4).all (seedOk 3 4) = true := by decide +kernel
theorem seeds5 : (productRepeat [false, true] 5).all (seedOk 3 5) = true := by decide +kernel
theorem seeds6 : (productRepeat [false, true] 6).all (seedOk 5 6) = true := by decide +kernel
theorem seeds7 : (productRepeat [false, true] 7).all (seedOk 6 7) = true := by decide +kernel

/-- the word produced from a seed -/
def seedWord (c d : ℕ) (s : List Bool) : List Bool :=
  (shiftRegister c d (2 ^ d - 1 - d) s.reverse).reverse

theorem seedOk_spec {c d : ℕ} {s : List Bool} (h : seedOk c d s = true) :
    (seedWord c d s).length = 2 ^ d - 1 ∧ (seedWord c d s).take d = s ∧
    List.zipWith Bool.xor (seedWord c d s) ((seedWord c d s).drop c ++ (seedWord c d s).take c)
      = (seedWord c d s).drop d ++ (seedWord c d s).take d ∧
    (s = List.replicate d false ∨ (seedWord c d s).countP id = 2 ^ (d - 1)) := by
  unfold seedOk at h
  simp only [Bool.and_eq_true, Bool.or_eq_true, decide_eq_true_eq] at h
  exact ⟨h.1.1.1, h.1.1.2, h.1.2, h.2⟩

/-- the support of a vector -/
def toBits {N : ℕ} (w : Fin N → F) : List Bool := List.ofFn fun i => decide (w i ≠ 0)

theorem length_toBits {N : ℕ} (w : Fin N → F) : (toBits w).length = N := by simp [toBits]

theorem countP_toBits {N : ℕ} (w : Fin N → F) : (toBits w).countP id = hammingNorm w := by
  unfold toBits hammingNorm
  rw [List.countP_eq_length_filter, List.ofFn_eq_map, List.filter_map, List.length_map]
  rw [← List.toFinset_card_of_nodup ((List.nodup_finRange N).filter _)]
  congr 1
  ext i
  simp

theorem rotate_get {l : List Bool} {k i : ℕ} (hk : k ≤ l.length) (hi : i < l.length) :
    (l.drop k ++ l.take k)[i]? = l[(i + k) % l.length]? := by
  rw [List.getElem?_append, List.length_drop]
  by_cases h : i < l.length - k
  · rw [if_pos h, List.getElem?_drop, Nat.mod_eq_of_lt (by omega), Nat.add_comm]
  · rw [if_neg h, List.getElem?_take, if_pos (by omega)]
    congr 1
    rw [Nat.mod_eq_sub_mod (by omega), Nat.mod_eq_of_lt (by omega)]
    omega

theorem shiftRegister_take {c d N : ℕ} {b : List Bool} (hb : b.length = N) (hd : 0 < d) (hcd : c < d)
    (hrec : ∀ i, i + d < N → b.getD (i + d) false = (b.getD i false ^^ b.getD (i + c) false)) :
    ∀ k m, d ≤ m → m + k ≤ N → shiftRegister c d k (b.take m).reverse = (b.take (m + k)).reverse := by
  intro k
  induction k with
  | zero => intro m _ _; rfl
  | succ k ih =>
    intro m hm hk
    unfold shiftRegister
    have get : ∀ j, j < m → (b.take m).reverse.getD j false = b.getD (m - 1 - j) false := by
      intro j hj
      have hlen : (b.take m).length = m := by rw [List.length_take]; omega
      rw [List.getD_eq_getElem?_getD, List.getElem?_reverse (by omega), hlen, List.getElem?_take,
        if_pos (by omega), List.getD_eq_getElem?_getD]
    rw [get _ (by omega), get _ (by omega)]
    have e := hrec (m - d) (by omega)
    rw [show m - d + d = m by omega] at e
    rw [show m - 1 - (d - 1) = m - d by omega, show m - 1 - (d - 1 - c) = m - d + c by omega, ← e]
    have hs : b.getD m false :: (b.take m).reverse = (b.take (m + 1)).reverse := by
      rw [List.take_add_one, List.reverse_append, List.getD_eq_getElem _ _ (by omega),
        List.getElem?_eq_getElem (by omega)]
      rfl
    rw [hs, ih (m + 1) (by omega) (by omega)]
    congr 2
    omega

/-- the checks of the simplex code -/
def CyclicChecks (N c d : ℕ) (b : List Bool) : Prop :=
  ∀ i < N, (b.getD i false ^^ b.getD ((i + c) % N) false) = b.getD ((i + d) % N) false

theorem cyclicChecks_iff {N c d : ℕ} {b : List Bool} (hb : b.length = N) (hc : c ≤ N) (hd : d ≤ N) :
    CyclicChecks N c d b ↔
      List.zipWith Bool.xor b (b.drop c ++ b.take c) = b.drop d ++ b.take d := by
  have hlr : ∀ k, k ≤ N → (b.drop k ++ b.take k).length = N := by
    intro k hk; simp; omega
  have hget : ∀ k i, k ≤ N → i < N → (b.drop k ++ b.take k)[i]? = some (b.getD ((i + k) % N) false) := by
    intro k i hk hi
    subst hb
    rw [rotate_get hk hi, List.getD_eq_getElem?_getD]
    have : (i + k) % b.length < b.length := Nat.mod_lt _ (by omega)
    rw [List.getElem?_eq_getElem this]; rfl
  have hb' : ∀ i, i < N → b[i]? = some (b.getD i false) := by
    intro i hi
    rw [List.getD_eq_getElem?_getD, List.getElem?_eq_getElem (by omega)]; rfl
  constructor
  · intro h
    apply List.ext_getElem?
    intro i
    by_cases hi : i < N
    · rw [List.getElem?_zipWith, hget c i hc hi, hget d i hd hi, hb' i hi, ← h i hi]
    · rw [List.getElem?_eq_none (by rw [List.length_zipWith, hlr c hc]; omega),
        List.getElem?_eq_none (by rw [hlr d hd]; omega)]
  · intro h i hi
    have := congrArg (fun l => l[i]?) h
    simp only [List.getElem?_zipWith, hget c i hc hi, hget d i hd hi, hb' i hi] at this
    exact Option.some.inj this

theorem eq_seedWord {c d : ℕ} {b : List Bool} (hd : 0 < d) (hcd : c < d) (hN : d < 2 ^ d - 1)
    (hb : b.length = 2 ^ d - 1) (h : CyclicChecks (2 ^ d - 1) c d b) :
    b = seedWord c d (b.take d) := by
  have := shiftRegister_take hb hd hcd (fun i hi => by
    have := h i (by omega)
    rw [Nat.mod_eq_of_lt (by omega), Nat.mod_eq_of_lt hi] at this
    exact this.symm) (2 ^ d - 1 - d) d le_rfl (by omega)
  unfold seedWord
  rw [this, List.reverse_reverse, List.take_of_length_le (by omega)]

theorem isWord_simplexRows (hbin : IsBinary F) {N c d : ℕ} (hc0 : 0 < c) (hcd : c < d) (hdN : d < N)
    (w : Fin N → F) :
    IsWord ((List.range N).map fun row => simplexRow F N [0, c, d] row) w ↔ CyclicChecks N c d (toBits w) := by
  have hget : ∀ i (h : i < N), (toBits w).getD i false = decide (w ⟨i, h⟩ ≠ 0) := by
    intro i h
    rw [List.getD_eq_getElem _ _ (by rw [length_toBits]; exact h)]
    simp [toBits]
  have hmod : ∀ i k, i < N → k ≤ d → (i + k) % N = if i + k < N then i + k else i + k - N := by
    intro i k hi hk
    split
    · rename_i h; exact Nat.mod_eq_of_lt h
    · rw [Nat.mod_eq_sub_mod (by omega), Nat.mod_eq_of_lt (by omega)]
  have hsum : ∀ i (hi : i < N), ∑ j, simplexRow F N [0, c, d] i j * w j =
      w ⟨i, hi⟩ + w ⟨(i + c) % N, Nat.mod_lt _ (by omega)⟩ + w ⟨(i + d) % N, Nat.mod_lt _ (by omega)⟩ := by
    intro i hi
    have m0 : (i + 0) % N = i := Nat.mod_eq_of_lt hi
    have n1 : i ≠ (i + c) % N := by rw [hmod i c hi (by omega)]; split <;> omega
    have n2 : i ≠ (i + d) % N := by rw [hmod i d hi le_rfl]; split <;> omega
    have n3 : (i + c) % N ≠ (i + d) % N := by
      rw [hmod i c hi (by omega), hmod i d hi le_rfl]; split <;> split <;> omega
    have e : ∀ j : Fin N, simplexRow F N [0, c, d] i j * w j =
        (if j = ⟨i, hi⟩ then w j else 0) + (if j = ⟨(i + c) % N, Nat.mod_lt _ (by omega)⟩ then w j else 0)
          + (if j = ⟨(i + d) % N, Nat.mod_lt _ (by omega)⟩ then w j else 0) := by
      intro j
      unfold simplexRow
      simp only [List.any_cons, List.any_nil, Bool.or_false, Bool.or_eq_true, decide_eq_true_eq, m0, Fin.ext_iff]
      by_cases h1 : j.val = i
      · have h2 : ¬ j.val = (i + c) % N := by omega
        have h3 : ¬ j.val = (i + d) % N := by omega
        rw [if_pos (Or.inl h1), if_pos h1, if_neg h2, if_neg h3]; simp
      · by_cases h2 : j.val = (i + c) % N
        · have h3 : ¬ j.val = (i + d) % N := by omega
          rw [if_pos (Or.inr (Or.inl h2)), if_neg h1, if_pos h2, if_neg h3]; simp
        · by_cases h3 : j.val = (i + d) % N
          · rw [if_pos (Or.inr (Or.inr h3)), if_neg h1, if_neg h2, if_pos h3]; simp
          · rw [if_neg (by tauto), if_neg h1, if_neg h2, if_neg h3]; simp
    rw [Finset.sum_congr rfl fun j _ => e j, Finset.sum_add_distrib, Finset.sum_add_distrib]
    simp
  have bit : ∀ x y z : F, x + y + z = 0 ↔ (decide (x ≠ 0) ^^ decide (y ≠ 0)) = decide (z ≠ 0) := by
    intro x y z
    have h11 := hbin.one_add_one
    rcases hbin x with rfl | rfl <;> rcases hbin y with rfl | rfl <;> rcases hbin z with rfl | rfl <;>
      simp [h11]
  unfold IsWord CyclicChecks
  simp only [List.mem_map, List.mem_range, forall_exists_index, and_imp, forall_apply_eq_imp_iff₂]
  refine forall_congr' fun i => forall_congr' fun hi => ?_
  rw [hsum i hi, bit, hget i hi, hget _ (Nat.mod_lt _ (by omega)), hget _ (Nat.mod_lt _ (by omega))]

/-- the vector with the given support -/
def ofBits (F : Type) [Field F] (N : ℕ) (b : List Bool) : Fin N → F := fun i => if b.getD i false then 1 else 0

theorem toBits_ofBits {N : ℕ} {b : List Bool} (hb : b.length = N) : toBits (ofBits F N b) = b := by
  apply List.ext_getElem (by rw [length_toBits, hb])
  intro i h1 h2
  have e : (ofBits F N b ⟨i, by omega⟩ ≠ 0) ↔ b[i] = true := by
    unfold ofBits
    rw [List.getD_eq_getElem _ _ h2]
    cases b[i] <;> simp
  simp only [toBits, List.getElem_ofFn, e]
  simp

theorem ofBits_toBits (hbin : IsBinary F) {N : ℕ} (w : Fin N → F) : ofBits F N (toBits w) = w := by
  funext i
  unfold ofBits
  rw [List.getD_eq_getElem _ _ (by rw [length_toBits]; exact i.isLt)]
  simp only [toBits, List.getElem_ofFn]
  rcases hbin (w i) with h | h <;> simp [h]

theorem mem_seeds (s : List Bool) (d : ℕ) (h : s.length = d) : s ∈ productRepeat [false, true] d :=
  (mem_productRepeat _ _ _).2 ⟨h, fun x _ => by cases x <;> simp⟩

/-- the parameters of a simplex code whose seeds have been checked -/
theorem simplex_of_seeds (hbin : IsBinary F) {c d : ℕ} (hc0 : 0 < c) (hcd : c < d) (hdN : d < 2 ^ d - 1)
    (hok : (productRepeat [false, true] d).all (seedOk c d) = true) :
    let H := (List.range (2 ^ d - 1)).map fun row => simplexRow F (2 ^ d - 1) [0, c, d] row
    codeDim H = d ∧ ∀ w, IsWord H w → w ≠ 0 → hammingNorm w = 2 ^ (d - 1) := by
  intro H
  have hw := isWord_simplexRows hbin hc0 hcd hdN
  have ok : ∀ s : List Bool, s.length = d → seedOk c d s = true := fun s hs =>
    List.all_eq_true.1 hok s (mem_seeds s d hs)
  have word : ∀ w, IsWord H w → toBits w = seedWord c d ((toBits w).take d) := fun w h =>
    eq_seedWord (by omega) hcd hdN (length_toBits w) ((hw w).1 h)
  constructor
  · let f : codeSpace H →ₗ[F] (Fin d → F) :=
      { toFun := fun w i => w.1 ⟨i, by omega⟩
        map_add' := fun _ _ => rfl
        map_smul' := fun _ _ => rfl }
    have htake : ∀ w : Fin (2 ^ d - 1) → F, (toBits w).take d = toBits fun i : Fin d => w ⟨i, by omega⟩ := by
      intro w
      apply List.ext_getElem
      · rw [List.length_take, length_toBits, length_toBits]; omega
      · intro i h1 h2
        simp [toBits]
    have hinj : Function.Injective f := by
      intro a b h
      apply Subtype.ext
      rw [← ofBits_toBits hbin a.1, ← ofBits_toBits hbin b.1, word _ a.2, word _ b.2, htake, htake]
      have : (fun i : Fin d => a.1 ⟨i, by omega⟩) = fun i : Fin d => b.1 ⟨i, by omega⟩ := h
      rw [this]
    have hsurj : Function.Surjective f := by
      intro v
      obtain ⟨h1, h2, h3, _⟩ := seedOk_spec (ok (toBits v) (length_toBits v))
      refine ⟨⟨ofBits F _ (seedWord c d (toBits v)), (hw _).2 ?_⟩, ?_⟩
      · rw [toBits_ofBits h1, cyclicChecks_iff h1 (by omega) (by omega)]
        exact h3
      · refine Eq.trans ?_ (ofBits_toBits hbin v)
        funext i
        change ofBits F _ (seedWord c d (toBits v)) ⟨i, _⟩ = ofBits F d (toBits v) i
        unfold ofBits
        congr 1
        conv_rhs => rw [← h2]
        rw [List.getD_eq_getElem?_getD, List.getD_eq_getElem?_getD, List.getElem?_take, if_pos i.isLt]
    unfold codeDim
    rw [(LinearEquiv.ofBijective f ⟨hinj, hsurj⟩).finrank_eq, Module.finrank_fin_fun]
  · intro w h hne
    obtain ⟨h1, h2, _, h4⟩ := seedOk_spec (ok ((toBits w).take d) (by
      rw [List.length_take, length_toBits]; omega))
    rw [← word w h] at h4
    rcases h4 with h4 | h4
    · exfalso
      apply hne
      have hz : toBits (0 : Fin (2 ^ d - 1) → F) = seedWord c d ((toBits (0 : Fin (2 ^ d - 1) → F)).take d) :=
        word 0 (fun r _ => by simp)
      have e : (toBits (0 : Fin (2 ^ d - 1) → F)).take d = List.replicate d false := by
        have : toBits (0 : Fin (2 ^ d - 1) → F) = List.replicate (2 ^ d - 1) false := by
          unfold toBits; simp
        rw [this, List.take_replicate]
        congr 1; omega
      rw [← ofBits_toBits hbin w, ← ofBits_toBits hbin (0 : Fin (2 ^ d - 1) → F), word w h, h4, hz, e]
    · rw [← countP_toBits, h4]

end QLDPC
