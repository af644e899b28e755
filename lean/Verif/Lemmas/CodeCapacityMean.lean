import Verif.Lemmas.CodeCapacity
import Mathlib.Algebra.Order.BigOperators.Ring.Finset

/-!
# Expected values of estimates, and the errors of CSS codes
-/

namespace QLDPC

/-! ### Expected values -/

section Mean

variable {A B : Type}

/-- The properties of an expected value. -/
structure IsMean (m : (A → ℚ) → ℚ) : Prop where
  const : ∀ c, m (fun _ => c) = c
  add : ∀ f g, m (fun a => f a + g a) = m f + m g
  smul : ∀ c f, m (fun a => c * f a) = c * m f
  nonneg : ∀ f, (∀ a, 0 ≤ f a) → 0 ≤ m f

theorem IsMean.comp {m : (A → ℚ) → ℚ} (h : IsMean m) (φ : A → B) : IsMean fun f : B → ℚ => m fun a => f (φ a) :=
  ⟨fun c => h.const c, fun f g => h.add _ _, fun c f => h.smul c _, fun f hf => h.nonneg _ fun a => hf _⟩

theorem IsMean.bind {m : (A → ℚ) → ℚ} (h : IsMean m) {m' : A → (B → ℚ) → ℚ} (h' : ∀ a, IsMean (m' a)) :
    IsMean fun f : B → ℚ => m fun a => m' a f :=
  ⟨fun c => by simp only [(h' _).const, h.const], fun f g => by simp only [(h' _).add, h.add],
    fun c f => by simp only [(h' _).smul, h.smul], fun f hf => h.nonneg _ fun a => (h' a).nonneg f hf⟩

theorem IsMean.affine {m : (A → ℚ) → ℚ} (h : IsMean m) (c d : ℚ) (f : A → ℚ) :
    m (fun a => c + d * f a) = c + d * m f := by rw [h.add, h.const, h.smul]

theorem IsMean.sum {m : (A → ℚ) → ℚ} (h : IsMean m) (s : Finset B) (c : B → ℚ) (f : B → A → ℚ) :
    m (fun a => ∑ b ∈ s, c b * f b a) = ∑ b ∈ s, c b * m (f b) := by
  classical
  induction s using Finset.induction_on with
  | empty => simpa using h.const 0
  | insert b s hb ih =>
    simp only [Finset.sum_insert hb]
    rw [h.add, h.smul, ih]

theorem isMean_weighted {items : List (A × ℚ)} (hs : (items.map Prod.snd).sum = 1) (h0 : ∀ a ∈ items, 0 ≤ a.2) : ∀ k, IsMean (meanWeighted items k)
  | 0 => ⟨fun _ => rfl, fun _ _ => rfl, fun _ _ => rfl, fun _ h => h _⟩
  | k + 1 => by
    have ih := isMean_weighted hs h0 k
    refine ⟨fun c => ?_, fun f g => ?_, fun c f => ?_, fun f hf => ?_⟩
    · simp only [meanWeighted, ih.const]
      simp only [mul_comm _ c]
      rw [list_sum_map_mul]
      have : (items.map fun a => a.2).sum = 1 := hs
      rw [this, mul_one]
    · simp only [meanWeighted, ih.add, mul_add]
      rw [List.sum_map_add]
    · simp only [meanWeighted, ih.smul]
      rw [← list_sum_map_mul]
      congr 1
      exact List.map_congr_left fun a _ => by ring
    · rw [meanWeighted]
      refine List.sum_nonneg fun x hx => ?_
      obtain ⟨a, ha, rfl⟩ := List.mem_map.1 hx
      exact mul_nonneg (h0 a ha) (ih.nonneg _ fun l => hf _)

theorem isMean_repeat {m : (A → ℚ) → ℚ} (h : IsMean m) : ∀ k, IsMean (meanRepeat m k)
  | 0 => ⟨fun _ => rfl, fun _ _ => rfl, fun _ _ => rfl, fun _ h => h _⟩
  | k + 1 => by
    have ih := isMean_repeat h k
    exact ⟨fun c => by simp only [meanRepeat, ih.const, h.const], fun f g => by simp only [meanRepeat, ih.add, h.add],
      fun c f => by simp only [meanRepeat, ih.smul, h.smul],
      fun f hf => h.nonneg _ fun a => ih.nonneg _ fun l => hf _⟩

theorem isMean_all [Fintype A] {μ : A → ℚ} (hμ : ∑ a, μ a = 1) (h0 : ∀ a, 0 ≤ μ a) : ∀ k, IsMean (meanAll μ k)
  | 0 => ⟨fun _ => rfl, fun _ _ => rfl, fun _ _ => rfl, fun _ h => h _⟩
  | k + 1 => by
    have ih := isMean_all hμ h0 k
    refine ⟨fun c => ?_, fun f g => ?_, fun c f => ?_, fun f hf => ?_⟩
    · simp only [meanAll, ih.const]
      rw [← Finset.sum_mul, hμ, one_mul]
    · simp only [meanAll, ih.add, mul_add, Finset.sum_add_distrib]
    · simp only [meanAll, ih.smul, Finset.mul_sum]
      exact Finset.sum_congr rfl fun a _ => by ring
    · exact Finset.sum_nonneg fun a _ => mul_nonneg (h0 a) (ih.nonneg _ fun l => hf _)

theorem isMean_sample [DecidableEq A] : ∀ (k : ℕ) (pool : List A), k ≤ pool.length → IsMean (meanSample pool k)
  | 0, _, _ => ⟨fun _ => rfl, fun _ _ => rfl, fun _ _ => rfl, fun _ h => h _⟩
  | k + 1, pool, hk => by
    have ih : ∀ a ∈ pool, IsMean (meanSample (pool.erase a) k) := fun a ha =>
      isMean_sample k _ (by rw [List.length_erase_of_mem ha]; omega)
    have hne : (pool.length : ℚ) ≠ 0 := by
      have : pool.length ≠ 0 := by omega
      exact_mod_cast this
    refine ⟨fun c => ?_, fun f g => ?_, fun c f => ?_, fun f hf => ?_⟩
    · simp only [meanSample]
      rw [List.map_congr_left (g := fun _ => c) fun a ha => (ih a ha).const c]
      simp only [List.map_const', List.sum_replicate, nsmul_eq_mul]
      rw [mul_div_right_comm, div_self hne, one_mul]
    · simp only [meanSample]
      rw [List.map_congr_left (fun a ha => (ih a ha).add _ _), List.sum_map_add, add_div]
    · simp only [meanSample]
      rw [List.map_congr_left (fun a ha => (ih a ha).smul _ _), list_sum_map_mul, mul_div_assoc]
    · refine div_nonneg (List.sum_nonneg fun x hx => ?_) (Nat.cast_nonneg _)
      obtain ⟨a, ha, rfl⟩ := List.mem_map.1 hx
      exact (ih a ha).nonneg _ fun l => hf _

theorem IsMean.le_one {m : (A → ℚ) → ℚ} (h : IsMean m) {f : A → ℚ} (hf : ∀ a, f a ≤ 1) : m f ≤ 1 := by
  have h1 := h.nonneg (fun a => 1 + (-1) * f a) fun a => by linarith [hf a]
  rw [h.affine] at h1
  linarith

/-- The moments of the number of failures. -/
theorem mean_count {m : (Bool → ℚ) → ℚ} (h : IsMean m) (k : ℕ) :
    meanRepeat m k (fun l => (l.countP id : ℚ)) = k * m (fun b => if b then 1 else 0) ∧
    meanRepeat m k (fun l => (l.countP id : ℚ) * (l.countP id : ℚ)) =
      k * m (fun b => if b then 1 else 0) * (1 - m (fun b => if b then 1 else 0)) +
        (k * m (fun b => if b then 1 else 0)) * (k * m (fun b => if b then 1 else 0)) := by
  set f := m (fun b => if b then (1 : ℚ) else 0) with hf
  induction k with
  | zero => simp [meanRepeat]
  | succ k ih =>
    have hr := isMean_repeat h k
    obtain ⟨i1, i2⟩ := ih
    have c1 : ∀ (b : Bool) (l : List Bool), ((b :: l).countP id : ℚ) = (if b then 1 else 0) + (l.countP id : ℚ) := by
      intro b l
      cases b <;> simp [add_comm]
    have c2 : ∀ (b : Bool) (l : List Bool), ((b :: l).countP id : ℚ) * ((b :: l).countP id : ℚ) =
        ((if b then 1 else 0) + 2 * (if b then 1 else 0) * (l.countP id : ℚ)) + (l.countP id : ℚ) * (l.countP id : ℚ) := by
      intro b l
      rw [c1]
      cases b <;> simp <;> ring
    constructor
    · simp only [meanRepeat, c1]
      have : ∀ b : Bool, meanRepeat m k (fun l => (if b then (1 : ℚ) else 0) + (l.countP id : ℚ)) =
          k * f + 1 * (if b then 1 else 0) := by
        intro b
        rw [hr.add, hr.const, i1]
        ring
      simp only [this]
      rw [h.affine]
      push_cast
      ring
    · simp only [meanRepeat, c2]
      have : ∀ b : Bool, meanRepeat m k (fun l => ((if b then (1 : ℚ) else 0) + 2 * (if b then 1 else 0) * (l.countP id : ℚ)) +
          (l.countP id : ℚ) * (l.countP id : ℚ)) =
          (k * f * (1 - f) + (k * f) * (k * f)) + (1 + 2 * (k * f)) * (if b then 1 else 0) := by
        intro b
        rw [hr.add, hr.add, hr.const, hr.smul, i1, i2]
        ring
      simp only [this]
      rw [h.affine]
      push_cast
      ring

/-- The fidelity and variance of a list of outcomes. -/
def estimate (failures : List Bool) : ℚ × ℚ :=
  (1 - (failures.countP id : ℚ) / failures.length,
    (failures.countP id : ℚ) / failures.length * (1 - (failures.countP id : ℚ) / failures.length) / failures.length)

/-- The expected value of a function of the estimates. -/
def meanEstimates (mean : ℕ → (Bool → ℚ) → ℚ) (alloc : List (ℕ × ℕ)) (f : List (ℚ × ℚ) → ℚ) : ℚ :=
  meanOutcomes mean alloc fun o => f (o.map estimate)

theorem meanRepeat_congr {m : (A → ℚ) → ℚ} : ∀ (k : ℕ) {f g : List A → ℚ}, (∀ l, l.length = k → f l = g l) →
    meanRepeat m k f = meanRepeat m k g
  | 0, f, g, h => h [] rfl
  | k + 1, f, g, h => by
    simp only [meanRepeat]
    congr 1
    funext a
    exact meanRepeat_congr k fun l hl => h _ (by simp [hl])

theorem meanOutcomes_congr {m : ℕ → (Bool → ℚ) → ℚ} : ∀ (alloc : List (ℕ × ℕ)) {f g : List (List Bool) → ℚ},
    (∀ o, o.map List.length = alloc.map Prod.snd → f o = g o) → meanOutcomes m alloc f = meanOutcomes m alloc g
  | [], f, g, h => h [] rfl
  | (w, k) :: alloc, f, g, h => by
    simp only [meanOutcomes]
    refine meanRepeat_congr k fun l hl => meanOutcomes_congr alloc fun o ho => h _ (by simp [hl, ho])

theorem meanEstimates_cons {m : ℕ → (Bool → ℚ) → ℚ} (w k : ℕ) (alloc : List (ℕ × ℕ)) (f : List (ℚ × ℚ) → ℚ) :
    meanEstimates m ((w, k) :: alloc) f = meanRepeat (m w) k fun failures => meanEstimates m alloc fun l =>
      f ((1 - (failures.countP id : ℚ) / k,
          (failures.countP id : ℚ) / k * (1 - (failures.countP id : ℚ) / k) / k) :: l) := by
  unfold meanEstimates
  rw [meanOutcomes]
  refine meanRepeat_congr k fun l hl => ?_
  simp only [List.map_cons, estimate, hl]

/-- The expected value of a linear function of the fidelities. -/
theorem meanEstimates_linear {m : ℕ → (Bool → ℚ) → ℚ} : ∀ (alloc : List (ℕ × ℕ)) (_ : ∀ x ∈ alloc, IsMean (m x.1))
    (_ : ∀ x ∈ alloc, x.2 ≠ 0) (c d : ℕ → ℚ) (c0 : ℚ),
    meanEstimates m alloc (fun l => c0 + (l.zipIdx.map fun x => c x.2 * x.1.1 + d x.2 * x.1.2).sum) =
      c0 + (alloc.zipIdx.map fun x => c x.2 * (1 - m x.1.1 (fun b => if b then 1 else 0)) +
        d x.2 * ((1 - 1 / x.1.2) * (m x.1.1 (fun b => if b then 1 else 0) *
          (1 - m x.1.1 (fun b => if b then 1 else 0)) / x.1.2))).sum
  | [], _, _, c, d, c0 => by simp [meanEstimates, meanOutcomes]
  | (w, k) :: alloc, hm, hk, c, d, c0 => by
    have ih := meanEstimates_linear (m := m) alloc (fun x hx => hm x (List.mem_cons_of_mem _ hx))
      (fun x hx => hk x (List.mem_cons_of_mem _ hx)) (fun i => c (i + 1)) (fun i => d (i + 1))
    have hk0 : (k : ℚ) ≠ 0 := by exact_mod_cast hk (w, k) List.mem_cons_self
    have hw : IsMean (m w) := hm (w, k) List.mem_cons_self
    have hr := isMean_repeat hw k
    have shift : ∀ {X : Type} (l : List X) (g : X × ℕ → ℚ), ((l.zipIdx 1).map g).sum = (l.zipIdx.map fun x => g (x.1, x.2 + 1)).sum := by
      intro X l g
      rw [List.zipIdx_succ, List.map_map]
      rfl
    rw [meanEstimates_cons]
    simp only [List.zipIdx_cons, List.map_cons, List.sum_cons, zero_add]
    simp only [shift]
    have e : ∀ failures : List Bool, meanEstimates m alloc (fun l => c0 + (c 0 * (1 - (failures.countP id : ℚ) / k) +
        d 0 * ((failures.countP id : ℚ) / k * (1 - (failures.countP id : ℚ) / k) / k) +
          (l.zipIdx.map fun x => c (x.2 + 1) * x.1.1 + d (x.2 + 1) * x.1.2).sum)) =
        ((c0 + c 0 + (alloc.zipIdx.map fun x => c (x.2 + 1) * (1 - m x.1.1 (fun b => if b then 1 else 0)) +
          d (x.2 + 1) * ((1 - 1 / x.1.2) * (m x.1.1 (fun b => if b then 1 else 0) *
            (1 - m x.1.1 (fun b => if b then 1 else 0)) / x.1.2))).sum) +
          (d 0 / (k * k) - c 0 / k) * (failures.countP id : ℚ)) +
            (- (d 0 / (k * k * k))) * ((failures.countP id : ℚ) * (failures.countP id : ℚ)) := by
      intro failures
      have := ih (c0 + (c 0 * (1 - (failures.countP id : ℚ) / k) +
        d 0 * ((failures.countP id : ℚ) / k * (1 - (failures.countP id : ℚ) / k) / k)))
      simp only [← add_assoc] at this ⊢
      rw [this]
      field_simp
      ring
    simp only [e]
    obtain ⟨m1, m2⟩ := mean_count hw k
    rw [hr.add, hr.affine, hr.smul, m1, m2]
    field_simp
    ring

end Mean

/-! ### The constructed function -/

theorem mapM_some_eq {A B : Type} {f : A → Option B} {g : A → B} : ∀ (l : List A), (∀ a ∈ l, f a = some (g a)) →
    l.mapM f = some (l.map g)
  | [], _ => rfl
  | a :: l, h => by
    rw [List.mapM_cons, h a List.mem_cons_self, mapM_some_eq l fun b hb => h b (List.mem_cons_of_mem _ hb)]
    rfl

theorem zipIdx_sum (l : List (ℚ × ℚ)) (g : (ℚ × ℚ) × ℕ → ℚ) :
    (l.zipIdx.map g).sum = ∑ k ∈ Finset.range l.length, g (l.getD k 0, k) := by
  have h1 : l.zipIdx = (List.range l.length).map fun k => (l.getD k 0, k) := by
    refine List.ext_getElem (by simp) fun i h1 h2 => ?_
    have : i < l.length := by simpa using h1
    simp [this]
  rw [h1, List.map_map]
  rfl

theorem zipIdx_sum_range {X : Type} (W : ℕ) (h : ℕ → X) (g : X × ℕ → ℚ) :
    (((List.range W).map h).zipIdx.map g).sum = ∑ k ∈ Finset.range W, g (h k, k) := by
  have h1 : ((List.range W).map h).zipIdx = (List.range W).map fun k => (h k, k) := by
    refine List.ext_getElem (by simp) fun i h1 h2 => ?_
    simp
  rw [h1, List.map_map]
  rfl

/-! ### Errors of all weights -/

section Total

variable {A : Type} [Zero A] [Fintype A] [DecidableEq A] {n : ℕ}

/-- Independent errors: a sum over all errors by weight. -/
theorem sum_noise (μ : A → ℚ) (hμ : μ 0 = 0) (p : ℚ) (f : (Fin n → A) → ℚ) :
    ∑ e : Fin n → A, (∏ i, if e i = 0 then 1 - p else p * μ (e i)) * f e =
      ∑ w ∈ Finset.range (n + 1), (n.choose w : ℚ) * p ^ w * (1 - p) ^ (n - w) *
        meanSample (List.finRange n) w (fun locs => meanAll μ w fun vals => f (placeValues locs vals)) := by
  have key : ∀ w ∈ Finset.range (n + 1), (n.choose w : ℚ) * p ^ w * (1 - p) ^ (n - w) *
        meanSample (List.finRange n) w (fun locs => meanAll μ w fun vals => f (placeValues locs vals)) =
      ∑ e ∈ Finset.univ.filter (fun e : Fin n → A => (Finset.univ.filter fun i => e i ≠ 0).card = w),
        (∏ i, if e i = 0 then 1 - p else p * μ (e i)) * f e := by
    intro w hw
    have h1 := meanSample_meanAll μ hμ w (List.finRange n) (List.nodup_finRange n)
      (by rw [List.length_finRange]; have := Finset.mem_range.1 hw; omega) f
    rw [List.length_finRange] at h1
    have h2 : errorsOn (A := A) (List.finRange n).toFinset w =
        Finset.univ.filter (fun e : Fin n → A => (Finset.univ.filter fun i => e i ≠ 0).card = w) := by
      ext e
      rw [mem_errorsOn]
      simp
    rw [h2] at h1
    calc _ = p ^ w * (1 - p) ^ (n - w) * ((n.choose w : ℚ) *
        meanSample (List.finRange n) w (fun locs => meanAll μ w fun vals => f (placeValues locs vals))) := by ring
      _ = _ := by
        rw [h1, Finset.mul_sum]
        refine Finset.sum_congr rfl fun e he => ?_
        rw [Finset.mem_filter] at he
        rw [Finset.prod_ite, Finset.prod_const, Finset.prod_mul_distrib, Finset.prod_const]
        have h3 : (Finset.univ.filter fun i => ¬ e i = 0).card = w := he.2
        have h4 : (Finset.univ.filter fun i => e i = 0).card = n - w := by
          have := Finset.card_filter_add_card_filter_not (s := (Finset.univ : Finset (Fin n))) (fun i => e i = 0)
          rw [h3, Finset.card_univ, Fintype.card_fin] at this
          omega
        rw [h3, h4]
        unfold siteWeight
        ring
  rw [Finset.sum_congr rfl key]
  rw [← Finset.sum_fiberwise_of_maps_to (s := Finset.univ) (t := Finset.range (n + 1))
    (g := fun e : Fin n → A => (Finset.univ.filter fun i => e i ≠ 0).card)]
  intro e _
  rw [Finset.mem_range]
  have := Finset.card_le_univ (Finset.univ.filter fun i : Fin n => e i ≠ 0)
  rw [Fintype.card_fin] at this
  omega

end Total

/-! ### Classical and quantum errors -/

section Errors

variable {F : Type} [Field F] [DecidableEq F] [Fintype F] {n : ℕ}

/-- Equal probabilities of the nonzero elements. -/
def uniformNonzero (x : F) : ℚ := if x = 0 then 0 else 1 / (Fintype.card F - 1 : ℚ)

/-- Probabilities of pairs of powers of X and of Z. -/
def pauliNonzero (bx bY bz : ℚ) (a : F × F) : ℚ :=
  if a.1 = 0 then (if a.2 = 0 then 0 else bz / (Fintype.card F - 1 : ℚ))
  else if a.2 = 0 then bx / (Fintype.card F - 1 : ℚ) else bY / (Fintype.card F - 1 : ℚ) ^ 2

variable {nonzero : List F}

theorem nonzero_length (hn : nonzero.Nodup) (hm : ∀ x, x ∈ nonzero ↔ x ≠ 0) :
    (nonzero.length : ℚ) = Fintype.card F - 1 := by
  have h1 : nonzero.toFinset = Finset.univ.erase 0 := by ext x; simp [hm]
  have h2 : nonzero.toFinset.card = nonzero.length := List.toFinset_card_of_nodup hn
  rw [h1, Finset.card_erase_of_mem (Finset.mem_univ _), Finset.card_univ] at h2
  have h3 : 1 ≤ Fintype.card F := Fintype.card_pos
  rw [← h2]
  push_cast [h3]
  rfl

theorem nonzero_sum (hn : nonzero.Nodup) (hm : ∀ x, x ∈ nonzero ↔ x ≠ 0) (g : F → ℚ) :
    (nonzero.map g).sum = ∑ x, if x = 0 then 0 else g x := by
  rw [← List.sum_toFinset _ hn]
  have h1 : nonzero.toFinset = Finset.univ.filter fun x => ¬ x = 0 := by ext x; simp [hm]
  rw [h1, Finset.sum_filter]
  exact Finset.sum_congr rfl fun x _ => by by_cases h : x = 0 <;> simp [h]

theorem card_sub_one_ne : (Fintype.card F - 1 : ℚ) ≠ 0 := by
  have : 1 < Fintype.card F := Fintype.one_lt_card
  have : (1 : ℚ) < Fintype.card F := by exact_mod_cast this
  linarith

theorem sum_uniformNonzero (hn : nonzero.Nodup) (hm : ∀ x, x ∈ nonzero ↔ x ≠ 0) : ∑ x : F, uniformNonzero x = 1 := by
  unfold uniformNonzero
  rw [← nonzero_sum hn hm]
  simp only [List.map_const', List.sum_replicate, nsmul_eq_mul]
  rw [nonzero_length hn hm, mul_one_div, div_self card_sub_one_ne]

theorem uniformNonzero_nonneg (x : F) : 0 ≤ uniformNonzero x := by
  unfold uniformNonzero
  have : 1 < Fintype.card F := Fintype.one_lt_card
  have : (1 : ℚ) < Fintype.card F := by exact_mod_cast this
  split_ifs
  · exact le_rfl
  · exact div_nonneg zero_le_one (by linarith)

theorem pauliNonzero_nonneg {bx bY bz : ℚ} (hx : 0 ≤ bx) (hY : 0 ≤ bY) (hz : 0 ≤ bz) (a : F × F) :
    0 ≤ pauliNonzero bx bY bz a := by
  unfold pauliNonzero
  have : 1 < Fintype.card F := Fintype.one_lt_card
  have : (1 : ℚ) < Fintype.card F := by exact_mod_cast this
  have h : (0 : ℚ) ≤ Fintype.card F - 1 := by linarith
  split_ifs
  · exact le_rfl
  · exact div_nonneg hz h
  · exact div_nonneg hx h
  · exact div_nonneg hY (pow_nonneg h 2)

theorem meanChoice_eq (hn : nonzero.Nodup) (hm : ∀ x, x ∈ nonzero ↔ x ≠ 0) : ∀ (k : ℕ) (f : List F → ℚ),
    meanChoice nonzero k f = meanAll uniformNonzero k f
  | 0, _ => rfl
  | k + 1, f => by
    rw [meanChoice, meanAll, nonzero_sum hn hm, nonzero_length hn hm, Finset.sum_div]
    refine Finset.sum_congr rfl fun x _ => ?_
    rw [meanChoice_eq hn hm k]
    unfold uniformNonzero
    split_ifs
    · simp
    · ring

theorem isMean_classical (hn : nonzero.Nodup) (hm : ∀ x, x ∈ nonzero ↔ x ≠ 0) {w : ℕ} (hw : w ≤ n) :
    IsMean (classicalMean nonzero n w) := by
  have := (isMean_sample w (List.finRange n) (by simpa using hw)).bind
    (m' := fun locs f => meanAll uniformNonzero w fun vals => f (placeValues locs vals))
    fun locs => (isMean_all (sum_uniformNonzero hn hm) uniformNonzero_nonneg w).comp (placeValues locs)
  unfold classicalMean
  simp only [meanChoice_eq hn hm]
  exact this

theorem classicalMean_eq (hn : nonzero.Nodup) (hm : ∀ x, x ∈ nonzero ↔ x ≠ 0) (w : ℕ) (f : (Fin n → F) → ℚ) :
    classicalMean nonzero n w f = meanSample (List.finRange n) w (fun locs => meanAll uniformNonzero w fun vals =>
      f (placeValues locs vals)) := by
  unfold classicalMean
  simp only [meanChoice_eq hn hm]

theorem sum_pauliNonzero (hn : nonzero.Nodup) (hm : ∀ x, x ∈ nonzero ↔ x ≠ 0) (bx bY bz : ℚ) (g : F × F → ℚ) :
    ∑ a : F × F, pauliNonzero bx bY bz a * g a =
      bz * (∑ z : F, uniformNonzero z * g (0, z)) + (bx * (∑ x : F, uniformNonzero x * g (x, 0)) +
        bY * ∑ x : F, uniformNonzero x * ∑ z : F, uniformNonzero z * g (x, z)) := by
  have hp : ∀ x z : F, pauliNonzero bx bY bz (x, z) =
      (if x = 0 then bz * uniformNonzero z else 0) + ((if z = 0 then bx * uniformNonzero x else 0) +
        bY * (uniformNonzero x * uniformNonzero z)) := by
    intro x z
    unfold pauliNonzero uniformNonzero
    by_cases hx : x = 0 <;> by_cases hz : z = 0 <;> simp [hx, hz]
    · ring
    · ring
    · rw [pow_two, div_eq_mul_inv, mul_inv]
  rw [Fintype.sum_prod_type]
  simp only [hp, add_mul, Finset.sum_add_distrib, ite_mul, zero_mul]
  congr 1
  · rw [Finset.sum_comm, Finset.mul_sum]
    refine Finset.sum_congr rfl fun z _ => ?_
    rw [Finset.sum_ite_eq' Finset.univ (0 : F)]
    simp [mul_assoc]
  congr 1
  · rw [Finset.mul_sum]
    refine Finset.sum_congr rfl fun x _ => ?_
    rw [Finset.sum_ite_eq' Finset.univ (0 : F)]
    simp [mul_assoc]
  · rw [Finset.mul_sum]
    refine Finset.sum_congr rfl fun x _ => ?_
    rw [Finset.mul_sum, Finset.mul_sum]
    exact Finset.sum_congr rfl fun z _ => by ring

theorem sum_pauliNonzero_one (hn : nonzero.Nodup) (hm : ∀ x, x ∈ nonzero ↔ x ≠ 0) {bx bY bz : ℚ} (hb : bx + bY + bz = 1) :
    ∑ a : F × F, pauliNonzero bx bY bz a = 1 := by
  have := sum_pauliNonzero hn hm bx bY bz (fun _ : F × F => 1)
  simp only [mul_one, sum_uniformNonzero hn hm] at this
  rw [this]
  linarith

theorem mem_locs {locs : List (Fin n)} {paulis : List ℕ} {i : Fin n} :
    (i ∈ locsZ locs paulis → i ∈ locs) ∧ (i ∈ locsX locs paulis → i ∈ locs) := by
  unfold locsZ locsX
  constructor <;> intro h <;> obtain ⟨⟨a, b⟩, hx, rfl⟩ := List.mem_map.1 h <;>
    exact (List.of_mem_zip (List.mem_of_mem_filter hx)).1

theorem locs_nodup {locs : List (Fin n)} (h : locs.Nodup) (paulis : List ℕ) :
    (locsZ locs paulis).Nodup ∧ (locsX locs paulis).Nodup := by
  have h1 : ((locs.zip paulis).map Prod.fst).Nodup := by
    have h2 : ∀ (l : List (Fin n)) (p : List ℕ), ((l.zip p).map Prod.fst).Sublist l := by
      intro l
      induction l with
      | nil => intro p; simp
      | cons a l ih =>
        intro p
        cases p with
        | nil => simp
        | cons b p => simpa using ih p
    exact h.sublist (h2 _ _)
  exact ⟨h1.sublist (List.filter_sublist.map _), h1.sublist (List.filter_sublist.map _)⟩

theorem cssDraw_eq (hn : nonzero.Nodup) (hm : ∀ x, x ∈ nonzero ↔ x ≠ 0) {bx bY bz : ℚ} (hx : 0 ≤ bx) (hY : 0 ≤ bY) (hz : 0 ≤ bz)
    (hb : bx + bY + bz = 1) :
    ∀ (locs : List (Fin n)) (_ : locs.Nodup) (f : (Fin n → F) → (Fin n → F) → ℚ),
    (meanWeighted [(1, bz), (2, bx), (3, bY)] locs.length fun paulis =>
      meanChoice nonzero (locsZ locs paulis).length fun valsZ =>
        meanChoice nonzero (locsX locs paulis).length fun valsX =>
          f (placeValues (locsX locs paulis) valsX) (placeValues (locsZ locs paulis) valsZ)) =
      meanAll (pauliNonzero bx bY bz) locs.length fun vals =>
        f (fun i => (placeValues locs vals i).1) (fun i => (placeValues locs vals i).2)
  | [], _, f => rfl
  | i :: locs, hnd, f => by
    rw [List.nodup_cons] at hnd
    have hU := isMean_all (sum_uniformNonzero hn hm) uniformNonzero_nonneg
    have hW : ∀ k, IsMean (meanWeighted [(1, bz), (2, bx), (3, bY)] k) :=
      isMean_weighted (by simp only [List.map_cons, List.map_nil, List.sum_cons, List.sum_nil]; linarith)
        (by simp [hx, hY, hz])
    have z1 : ∀ ps : List ℕ, locsZ (i :: locs) (1 :: ps) = i :: locsZ locs ps := fun ps => rfl
    have z2 : ∀ ps : List ℕ, locsZ (i :: locs) (2 :: ps) = locsZ locs ps := fun ps => by simp [locsZ]
    have z3 : ∀ ps : List ℕ, locsZ (i :: locs) (3 :: ps) = i :: locsZ locs ps := fun ps => by simp [locsZ]
    have x1 : ∀ ps : List ℕ, locsX (i :: locs) (1 :: ps) = locsX locs ps := fun ps => rfl
    have x2 : ∀ ps : List ℕ, locsX (i :: locs) (2 :: ps) = i :: locsX locs ps := fun ps => rfl
    have x3 : ∀ ps : List ℕ, locsX (i :: locs) (3 :: ps) = i :: locsX locs ps := fun ps => rfl
    have nz : ∀ ps, i ∉ locsZ locs ps := fun ps h => hnd.1 (mem_locs.1 h)
    have nx : ∀ ps, i ∉ locsX locs ps := fun ps h => hnd.1 (mem_locs.2 h)
    have uz : ∀ ps (v : List F), Function.update (placeValues (locsZ locs ps) v) i 0 = placeValues (locsZ locs ps) v := by
      intro ps v
      rw [Function.update_eq_self_iff]
      exact (placeValues_notMem (locs_nodup hnd.2 ps).1 v (nz ps)).symm
    have ux : ∀ ps (v : List F), Function.update (placeValues (locsX locs ps) v) i 0 = placeValues (locsX locs ps) v := by
      intro ps v
      rw [Function.update_eq_self_iff]
      exact (placeValues_notMem (locs_nodup hnd.2 ps).2 v (nx ps)).symm
    have ih := fun f => cssDraw_eq hn hm hx hY hz hb locs hnd.2 f
    simp only [meanChoice_eq hn hm] at ih ⊢
    have hR : ∀ a : F × F, (meanAll (pauliNonzero bx bY bz) locs.length fun vals =>
        f (fun j => (placeValues (i :: locs) (a :: vals) j).1) (fun j => (placeValues (i :: locs) (a :: vals) j).2)) =
        meanWeighted [(1, bz), (2, bx), (3, bY)] locs.length fun paulis =>
          meanAll uniformNonzero (locsZ locs paulis).length fun valsZ =>
            meanAll uniformNonzero (locsX locs paulis).length fun valsX =>
              f (Function.update (placeValues (locsX locs paulis) valsX) i a.1)
                (Function.update (placeValues (locsZ locs paulis) valsZ) i a.2) := by
      intro a
      rw [ih fun ex ez => f (Function.update ex i a.1) (Function.update ez i a.2)]
      congr 1
      funext vals
      rw [placeValues_cons hnd.1]
      congr 1 <;> funext j <;> by_cases hj : j = i
      · subst hj; simp
      · simp [Function.update_of_ne hj]
      · subst hj; simp
      · simp [Function.update_of_ne hj]
    rw [List.length_cons, meanAll]
    simp only [hR]
    rw [sum_pauliNonzero hn hm, meanWeighted]
    simp only [List.map_cons, List.map_nil, List.sum_cons, List.sum_nil, add_zero]
    simp only [z1, z2, z3, x1, x2, x3, List.length_cons, meanAll]
    simp only [placeValues_cons (nz _), placeValues_cons (nx _)]
    simp only [uz, ux, (hU _).sum, (hW _).sum]
    congr 3
    simp only [Finset.mul_sum]
    rw [Finset.sum_comm]
    exact Finset.sum_congr rfl fun x _ => Finset.sum_congr rfl fun z _ => by ring

theorem cssMean_eq (hn : nonzero.Nodup) (hm : ∀ x, x ∈ nonzero ↔ x ≠ 0) {bx bY bz : ℚ} (hx : 0 ≤ bx) (hY : 0 ≤ bY) (hz : 0 ≤ bz)
    (hb : bx + bY + bz = 1) (w : ℕ)
    (f : (Fin n → F) → (Fin n → F) → ℚ) :
    cssMean nonzero [(1, bz), (2, bx), (3, bY)] n w f = meanSample (List.finRange n) w (fun locs =>
      meanAll (pauliNonzero bx bY bz) w fun vals =>
        f (fun i => (placeValues locs vals i).1) (fun i => (placeValues locs vals i).2)) := by
  unfold cssMean
  refine meanSample_congr w _ fun locs _ hl hnd => ?_
  rw [← hl]
  exact cssDraw_eq hn hm hx hY hz hb locs (hnd (List.nodup_finRange n)) f

theorem isMean_css (hn : nonzero.Nodup) (hm : ∀ x, x ∈ nonzero ↔ x ≠ 0) {bx bY bz : ℚ} (hx : 0 ≤ bx) (hY : 0 ≤ bY) (hz : 0 ≤ bz)
    (hb : bx + bY + bz = 1) {w : ℕ}
    (hw : w ≤ n) :
    IsMean fun f : (Fin n → F) × (Fin n → F) → ℚ => cssMean nonzero [(1, bz), (2, bx), (3, bY)] n w fun ex ez => f (ex, ez) := by
  have := (isMean_sample w (List.finRange n) (by simpa using hw)).bind
    (m' := fun locs (f : (Fin n → F) × (Fin n → F) → ℚ) => meanAll (pauliNonzero bx bY bz) w fun vals =>
      f (fun i => (placeValues locs vals i).1, fun i => (placeValues locs vals i).2))
    fun locs => (isMean_all (sum_pauliNonzero_one hn hm hb) (pauliNonzero_nonneg hx hY hz) w).comp fun vals =>
      (fun i => (placeValues locs vals i).1, fun i => (placeValues locs vals i).2)
  simp only [cssMean_eq hn hm hx hY hz hb]
  exact this

end Errors

end QLDPC
