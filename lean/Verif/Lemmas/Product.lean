import Verif.Model.Product
import Verif.Lemmas.Classical
import Verif.Lemmas.CssSubsystem
import Verif.Lemmas.StandardForm
import Mathlib.LinearAlgebra.Finsupp.LinearCombination

/-! # Lemmas about Kronecker products and the product codes -/

namespace QLDPC

open Spec

section Lists

variable {α β γ δ : Type}

theorem getElem?_flatMap_map (f : α → β → γ) (A : List α) (B : List β) (i j : ℕ) (hj : j < B.length) :
    (A.flatMap fun a => B.map (f a))[i * B.length + j]? = (A[i]?).map fun a => f a B[j] := by
  induction A generalizing i with
  | nil => simp
  | cons a A ih =>
    rw [List.flatMap_cons]
    cases i with
    | zero =>
      rw [List.getElem?_append_left (by simpa using hj)]
      simp [hj]
    | succ i =>
      rw [List.getElem?_append_right (by rw [List.length_map, Nat.succ_mul]; omega)]
      have : (i + 1) * B.length + j - (B.map (f a)).length = i * B.length + j := by
        rw [List.length_map, Nat.succ_mul]; omega
      rw [this, ih]; simp

theorem length_flatMap_map (f : α → β → γ) (A : List α) (B : List β) :
    (A.flatMap fun a => B.map (f a)).length = A.length * B.length := by
  induction A with
  | nil => simp
  | cons a A ih => rw [List.flatMap_cons, List.length_append, ih]; simp [Nat.succ_mul, Nat.add_comm]

end Lists

section Ring

variable {R : Type} {n m : ℕ}

/-- row of the identity matrix -/
def unitRow (R : Type) [Zero R] [One R] (i : Fin n) : Fin n → R := fun j => if j = i then 1 else 0

theorem eyeRows_eq [Zero R] [One R] : eyeRows R n = (List.finRange n).map (unitRow R) := rfl

theorem rows_eq_map (A : Rows R n) : A = (List.finRange A.length).map A.get := by
  simp

theorem zipWith_flatMap_map {α β γ δ ε : Type} (g : γ → ε → δ) (f : α → β → γ) (f' : α → β → ε) (A : List α)
    (B : List β) :
    List.zipWith g (A.flatMap fun a => B.map (f a)) (A.flatMap fun a => B.map (f' a)) =
      A.flatMap fun a => B.map fun b => g (f a b) (f' a b) := by
  induction A with
  | nil => simp
  | cons a A ih =>
    rw [List.flatMap_cons, List.flatMap_cons, List.flatMap_cons, List.zipWith_append (by simp), ih]
    congr 1
    rw [List.zipWith_map]
    induction B with
    | nil => rfl
    | cons b B ih' => simp

theorem kron_map {α β : Type} [Mul R] (f : α → Fin n → R) (g : β → Fin m → R) (A : List α) (B : List β) :
    kron (A.map f) (B.map g) = A.flatMap fun a => B.map fun b => kronRow (f a) (g b) := by
  simp [kron, List.flatMap_map, Function.comp_def]

variable [Mul R] [Zero R] [One R] (star : R → R)

/-- X-type check `(i, j)` of a hypergraph product -/
def hgpRowX (A : Rows R n) (B : Rows R m) (i : Fin A.length) (j : Fin m) :
    Fin (n * m + A.length * B.length) → R :=
  Fin.append (kronRow (A.get i) (unitRow R j)) (kronRow (unitRow R i) fun l => star (B.get l j))

theorem hgpX_eq (A : Rows R n) (B : Rows R m) : hgpX star A B =
    (List.finRange A.length).flatMap fun i => (List.finRange m).map fun j => hgpRowX star A B i j := by
  unfold hgpX hstack
  conv_lhs =>
    arg 2
    rw [rows_eq_map A]
  rw [eyeRows_eq, eyeRows_eq, transposeRows, kron_map, kron_map, zipWith_flatMap_map]
  rfl

variable [Neg R]

/-- Z-type check `(k, l)` of a hypergraph product -/
def hgpRowZ (A : Rows R n) (B : Rows R m) (k : Fin n) (l : Fin B.length) :
    Fin (n * m + A.length * B.length) → R :=
  Fin.append (fun p => - kronRow (unitRow R k) (B.get l) p) (kronRow (fun i => star (A.get i k)) (unitRow R l))

theorem hgpZ_eq (A : Rows R n) (B : Rows R m) : hgpZ star A B =
    (List.finRange n).flatMap fun k => (List.finRange B.length).map fun l => hgpRowZ star A B k l := by
  unfold hgpZ hstack
  conv_lhs =>
    arg 2
    rw [rows_eq_map B]
  rw [eyeRows_eq, eyeRows_eq, transposeRows, kron_map, kron_map, negRows, List.map_flatMap]
  simp only [List.map_map]
  exact zipWith_flatMap_map Fin.append _ _ _ _

theorem mem_hgpX (A : Rows R n) (B : Rows R m) (r) : r ∈ hgpX star A B ↔ ∃ i j, r = hgpRowX star A B i j := by
  rw [hgpX_eq]; simp [eq_comm]

theorem mem_hgpZ (A : Rows R n) (B : Rows R m) (r) : r ∈ hgpZ star A B ↔ ∃ k l, r = hgpRowZ star A B k l := by
  rw [hgpZ_eq]; simp [eq_comm]

end Ring

section Commute

variable {R : Type} [Ring R] {n m : ℕ}

theorem sum_flat {M : Type} [AddCommMonoid M] (f : Fin (n * m) → M) : ∑ k, f k = ∑ i, ∑ j, f (flat i j) := by
  rw [← Fintype.sum_prod_type']
  exact (Fintype.sum_equiv finProdFinEquiv _ _ fun _ => rfl).symm

theorem kronRow_flat' (a : Fin n → R) (b : Fin m → R) (i : Fin n) (j : Fin m) :
    kronRow a b (flat i j) = a i * b j := by rw [kronRow, divNat_flat, modNat_flat]

theorem hgp_dot {star : R → R} (h0 : star 0 = 0) (h1 : star 1 = 1) (hneg : ∀ x, star (-x) = - star x)
    (hmul : ∀ x y, star (x * y) = star y * star x) (hinv : ∀ x, star (star x) = x)
    (A : Rows R n) (B : Rows R m) (i j k l) :
    ∑ q, hgpRowX star A B i j q * star (hgpRowZ star A B k l q) =
      star (B.get l j) * A.get i k - A.get i k * star (B.get l j) := by
  have hu : ∀ {p : ℕ} (a b : Fin p), star (unitRow R a b) = unitRow R a b := by
    intro p a b; unfold unitRow; split_ifs <;> assumption
  rw [Fin.sum_univ_add]
  simp only [hgpRowX, hgpRowZ, Fin.append_left, Fin.append_right, hneg]
  rw [sum_flat, sum_flat]
  simp only [kronRow_flat', hmul, hu, hinv]
  have e1 : ∑ p, ∑ q, A.get i p * unitRow R j q * -(star (B.get l q) * unitRow R k p) =
      - (A.get i k * star (B.get l j)) := by
    rw [Finset.sum_eq_single k, Finset.sum_eq_single j]
    · simp [unitRow]
    · intro q _ hq; simp [unitRow, hq]
    · simp
    · intro p _ hp; simp [unitRow, hp]
    · simp
  have e2 : ∑ p, ∑ q, unitRow R i p * star (B.get q j) * (unitRow R l q * A.get p k) =
      star (B.get l j) * A.get i k := by
    rw [Finset.sum_eq_single i, Finset.sum_eq_single l]
    · simp [unitRow]
    · intro q _ hq; simp [unitRow, hq]
    · simp
    · intro p _ hp; simp [unitRow, hp]
    · simp
  rw [e1, e2, neg_add_eq_sub]

theorem hgp_commute {star : R → R} (h0 : star 0 = 0) (h1 : star 1 = 1) (hneg : ∀ x, star (-x) = - star x)
    (hmul : ∀ x y, star (x * y) = star y * star x) (hinv : ∀ x, star (star x) = x)
    (A : Rows R n) (B : Rows R m) :
    (∀ x ∈ hgpX star A B, ∀ z ∈ hgpZ star A B, ∑ q, x q * star (z q) = 0) ↔
      ∀ a ∈ A, ∀ b ∈ B, ∀ i j, a i * star (b j) = star (b j) * a i := by
  constructor
  · intro h a ha b hb k j
    obtain ⟨i, rfl⟩ := List.mem_iff_get.1 ha
    obtain ⟨l, rfl⟩ := List.mem_iff_get.1 hb
    have := h _ ((mem_hgpX star A B _).2 ⟨i, j, rfl⟩) _ ((mem_hgpZ star A B _).2 ⟨k, l, rfl⟩)
    rw [hgp_dot h0 h1 hneg hmul hinv] at this
    exact (sub_eq_zero.1 this).symm
  · intro h x hx z hz
    obtain ⟨i, j, rfl⟩ := (mem_hgpX star A B x).1 hx
    obtain ⟨k, l, rfl⟩ := (mem_hgpZ star A B z).1 hz
    rw [hgp_dot h0 h1 hneg hmul hinv, h _ (List.get_mem _ _) _ (List.get_mem _ _), sub_self]

end Commute

variable {F : Type} [Field F] [DecidableEq F] {n m : ℕ}

theorem dot_kronRow (a c : Fin n → F) (b d : Fin m → F) :
    dot (kronRow a b) (kronRow c d) = dot a c * dot b d := by
  unfold dot
  rw [sum_flat, Finset.sum_mul_sum]
  simp only [kronRow_flat]
  exact Finset.sum_congr rfl fun _ _ => Finset.sum_congr rfl fun _ _ => by ring

theorem dot_append (a c : Fin n → F) (b d : Fin m → F) :
    dot (Fin.append a b) (Fin.append c d) = dot a c + dot b d := by
  unfold dot
  rw [Fin.sum_univ_add]; simp

/-- two lists of vectors are dual to each other -/
def Paired (A B : Rows F n) : Prop := A.length = B.length ∧
  ∀ i j (hi : i < A.length) (hj : j < B.length), dot A[i] B[j] = if i = j then 1 else 0

theorem Paired.symm {A B : Rows F n} (h : Paired A B) : Paired B A :=
  ⟨h.1.symm, fun i j hi hj => by rw [dot_comm, h.2 j i hj hi]; simp [eq_comm]⟩

theorem getElem_kron (A : Rows F n) (B : Rows F m) (k : ℕ) (h : k < (kron A B).length) :
    ∃ (hi : k / B.length < A.length) (hj : k % B.length < B.length),
      (kron A B)[k] = kronRow A[k / B.length] B[k % B.length] := by
  have hl : (kron A B).length = A.length * B.length := length_flatMap_map _ _ _
  rw [hl] at h
  have hB : 0 < B.length := Nat.pos_of_ne_zero fun h0 => by simp [h0] at h
  have hi : k / B.length < A.length := (Nat.div_lt_iff_lt_mul hB).2 h
  have hj : k % B.length < B.length := Nat.mod_lt _ hB
  refine ⟨hi, hj, ?_⟩
  have := getElem?_flatMap_map (fun a b => kronRow a b) A B (k / B.length) (k % B.length) hj
  rw [Nat.div_add_mod' k B.length] at this
  have h2 : (kron A B)[k]? = some (kronRow A[k / B.length] B[k % B.length]) := by
    rw [show kron A B = A.flatMap fun a => B.map fun b => kronRow a b from rfl, this]; simp [hi]
  exact (List.getElem?_eq_some_iff.1 h2).2

theorem Paired.kron {A A' : Rows F n} {B B' : Rows F m} (hA : Paired A A') (hB : Paired B B') :
    Paired (kron A B) (QLDPC.kron A' B') := by
  have hl : ∀ (A : Rows F n) (B : Rows F m), (QLDPC.kron A B).length = A.length * B.length :=
    fun A B => length_flatMap_map _ _ _
  refine ⟨by rw [hl, hl, hA.1, hB.1], fun i j hi hj => ?_⟩
  obtain ⟨h1, h2, e⟩ := getElem_kron A B i hi
  obtain ⟨h3, h4, e'⟩ := getElem_kron A' B' j hj
  rw [e, e', dot_kronRow, hA.2 _ _ h1 h3, hB.2 _ _ h2 h4]
  by_cases hij : i = j
  · subst hij; simp [hB.1]
  · rw [if_neg hij]
    by_cases hd : i / B.length = j / B'.length
    · rw [if_neg (c := i % B.length = j % B'.length), mul_zero]
      intro hm
      apply hij
      rw [← Nat.div_add_mod' i B.length, ← Nat.div_add_mod' j B'.length, hd, hm, hB.1]
    · rw [if_neg hd, zero_mul]

theorem Paired.blockDiag2 {A A' : Rows F n} {B B' : Rows F m} (hA : Paired A A') (hB : Paired B B') :
    Paired (blockDiag2 A B) (QLDPC.blockDiag2 A' B') := by
  unfold QLDPC.blockDiag2
  refine ⟨by simp [hA.1, hB.1], fun i j hi hj => ?_⟩
  simp only [List.length_append, List.length_map] at hi hj
  by_cases h1 : i < A.length <;> by_cases h2 : j < A'.length
  · rw [List.getElem_append_left (by simpa using h1), List.getElem_append_left (by simpa using h2)]
    simp only [List.getElem_map]
    rw [dot_append, hA.2 _ _ h1 h2, dot_zero_left, add_zero]
  · rw [List.getElem_append_left (by simpa using h1), List.getElem_append_right (by simpa using h2)]
    simp only [List.getElem_map]
    have := hA.1
    rw [dot_append, dot_zero_left, dot_zero_right, if_neg (by omega), add_zero]
  · rw [List.getElem_append_right (by simpa using h1), List.getElem_append_left (by simpa using h2)]
    simp only [List.getElem_map]
    have := hA.1
    rw [dot_append, dot_zero_left, dot_zero_right, if_neg (by omega), add_zero]
  · rw [List.getElem_append_right (by simpa using h1), List.getElem_append_right (by simpa using h2)]
    simp only [List.getElem_map, List.length_map]
    have h3 : j - A'.length < B'.length := by have := hA.1; have := hB.1; omega
    have h4 : i - A.length < B.length := by omega
    rw [dot_append, dot_zero_left, hB.2 _ _ h4 h3, zero_add]
    have := hA.1
    by_cases hij : i = j
    · subst hij; simp [this]
    · rw [if_neg hij, if_neg (by omega)]

theorem pivotRows_rref {d : List (Fin n × (Fin n → F))} (h : IsRREF d) :
    pivotRows (d.map Prod.snd) = d.map fun q => unitRow F q.1 := by
  rw [pivotRows, firstNonzeroCols_rref h, List.map_map]; rfl

theorem dot_unitRow (i : Fin n) (v : Fin n → F) : dot (unitRow F i) v = v i := by
  unfold dot unitRow
  simp

/-- the pivot rows are dual to the rows of a reduced matrix -/
theorem paired_pivotRows {d : List (Fin n × (Fin n → F))} (h : IsRREF d) :
    Paired (pivotRows (d.map Prod.snd)) (d.map Prod.snd) := by
  rw [pivotRows_rref h]
  refine ⟨by simp, fun i j hi hj => ?_⟩
  simp only [List.length_map] at hi hj
  simp only [List.getElem_map]
  rw [dot_unitRow, h.pivot_eq _ (List.getElem_mem hj) _ (List.getElem_mem hi)]
  simp only [h.nodup.getElem_inj_iff]
  simp [eq_comm]

/-- a reduced generator matrix without zero rows -/
theorem rowReduce_eq_rref {M : Rows F n} (h : LinearIndependent F fun i => M.get i) :
    rowReduce M = (rrefPairs M).map Prod.snd := by
  have hr : M.length = rank M := by
    rw [← finrank_rowSpan, rowSpan]
    have : {v | v ∈ M} = Set.range fun i => M.get i := by
      ext v; simp [List.mem_iff_get]
    rw [this, finrank_span_eq_card h]; simp
  have h2 := length_rowReduce M
  have h3 : rowReduce M = (rrefPairs M).map Prod.snd ++ (rrefState M).2 := rfl
  have h4 : (rrefState M).2 = [] := by
    rw [h3, List.length_append, List.length_map] at h2
    have : (rrefPairs M).length = rank M := rfl
    exact List.length_eq_zero_iff.1 (by omega)
  rw [h3, h4, List.append_nil]

end QLDPC
