import Verif.Model.CodeCapacity
import Mathlib.Algebra.BigOperators.Group.Finset.Basic
import Mathlib.Algebra.BigOperators.Ring.Finset
import Mathlib.Algebra.BigOperators.Field
import Mathlib.Data.Fintype.Pi
import Mathlib.Data.Fintype.BigOperators
import Mathlib.Data.Nat.Choose.Basic
import Mathlib.Tactic.FieldSimp
import Mathlib.Tactic.Ring
import Mathlib.Tactic.Linarith

/-!
# Expected values of sampled errors
-/

namespace QLDPC

section Linear

variable {A B : Type}

theorem list_sum_map_sum (l : List A) (s : Finset B) (f : A → B → ℚ) :
    (l.map fun a => ∑ b ∈ s, f a b).sum = ∑ b ∈ s, (l.map fun a => f a b).sum := by
  induction l with
  | nil => simp
  | cons a l ih => simp [ih, Finset.sum_add_distrib]

theorem list_sum_map_mul (l : List A) (c : ℚ) (f : A → ℚ) : (l.map fun a => c * f a).sum = c * (l.map f).sum := by
  induction l with
  | nil => simp
  | cons a l ih => simp [ih, mul_add]

theorem meanSample_sum [DecidableEq A] (s : Finset B) (c : B → ℚ) : ∀ (k : ℕ) (pool : List A) (f : B → List A → ℚ),
    meanSample pool k (fun l => ∑ b ∈ s, c b * f b l) = ∑ b ∈ s, c b * meanSample pool k (f b)
  | 0, _, _ => rfl
  | k + 1, pool, f => by
    simp only [meanSample]
    simp only [meanSample_sum s c k]
    rw [list_sum_map_sum, Finset.sum_div]
    refine Finset.sum_congr rfl fun b _ => ?_
    rw [list_sum_map_mul, mul_div_assoc]

theorem meanSample_congr [DecidableEq A] : ∀ (k : ℕ) (pool : List A) {f g : List A → ℚ},
    (∀ l, (∀ a ∈ l, a ∈ pool) → l.length = k → (pool.Nodup → l.Nodup) → f l = g l) →
      meanSample pool k f = meanSample pool k g
  | 0, _, f, g, h => h [] (by simp) rfl (fun _ => List.nodup_nil)
  | k + 1, pool, f, g, h => by
    simp only [meanSample]
    congr 2
    refine List.map_congr_left fun a ha => meanSample_congr k _ fun l hl hk hn => h _ ?_ (by simp [hk]) ?_
    · intro b hb
      rcases List.mem_cons.1 hb with rfl | hb
      · exact ha
      · exact List.mem_of_mem_erase (hl b hb)
    · intro hp
      refine List.nodup_cons.2 ⟨fun h1 => ?_, hn (hp.erase a)⟩
      exact (List.Nodup.mem_erase_iff hp).1 (hl a h1) |>.1 rfl

end Linear

/-! ### Values at places -/

section Place

variable {A : Type} [Zero A] {n : ℕ}

theorem foldl_update_comm (l : List (Fin n × A)) (e : Fin n → A) {i : Fin n} (a : A) (hi : i ∉ l.map Prod.fst) :
    l.foldl (fun e lv => Function.update e lv.1 lv.2) (Function.update e i a) =
      Function.update (l.foldl (fun e lv => Function.update e lv.1 lv.2) e) i a := by
  induction l generalizing e with
  | nil => rfl
  | cons x l ih =>
    simp only [List.map_cons, List.mem_cons, not_or] at hi
    simp only [List.foldl_cons]
    rw [Function.update_comm hi.1, ih _ hi.2]

theorem zip_fst_subset {B : Type} (l : List B) (v : List A) {i : B} (h : i ∈ (l.zip v).map Prod.fst) : i ∈ l := by
  obtain ⟨⟨x, y⟩, hx, rfl⟩ := List.mem_map.1 h
  exact (List.of_mem_zip hx).1

theorem placeValues_nil (vals : List A) : placeValues ([] : List (Fin n)) vals = 0 := rfl

theorem placeValues_cons {i : Fin n} {locs : List (Fin n)} (h : i ∉ locs) (a : A) (vals : List A) :
    placeValues (i :: locs) (a :: vals) = Function.update (placeValues locs vals) i a := by
  unfold placeValues
  rw [List.zip_cons_cons, List.foldl_cons]
  exact foldl_update_comm _ _ _ fun h1 => h (zip_fst_subset _ _ h1)

theorem placeValues_notMem {i : Fin n} : ∀ {locs : List (Fin n)} (_ : locs.Nodup) (vals : List A), i ∉ locs →
    placeValues locs vals i = 0
  | [], _, _, _ => rfl
  | j :: locs, hn, [], _ => rfl
  | j :: locs, hn, a :: vals, hi => by
    rw [List.nodup_cons] at hn
    rw [List.mem_cons, not_or] at hi
    rw [placeValues_cons hn.1, Function.update_of_ne hi.1]
    exact placeValues_notMem hn.2 vals hi.2

end Place

/-! ### Errors of given weight -/

section Weight

variable {A : Type} [Zero A] [Fintype A] [DecidableEq A] {n : ℕ}

/-- Independent draws from a weighted finite type. -/
def meanAll (μ : A → ℚ) : ℕ → (List A → ℚ) → ℚ
  | 0, f => f []
  | k + 1, f => ∑ a, μ a * meanAll μ k fun l => f (a :: l)

/-- The errors of weight `w` on a set of places. -/
def errorsOn (s : Finset (Fin n)) (w : ℕ) : Finset (Fin n → A) :=
  Finset.univ.filter fun e => (Finset.univ.filter fun i => e i ≠ 0) ⊆ s ∧ (Finset.univ.filter fun i => e i ≠ 0).card = w

theorem mem_errorsOn {s : Finset (Fin n)} {w : ℕ} {e : Fin n → A} :
    e ∈ errorsOn s w ↔ (∀ i, e i ≠ 0 → i ∈ s) ∧ (Finset.univ.filter fun i => e i ≠ 0).card = w := by
  simp [errorsOn, Finset.subset_iff]

/-- The weight of an error. -/
def siteWeight (μ : A → ℚ) (e : Fin n → A) : ℚ := ∏ i ∈ Finset.univ.filter fun i => e i ≠ 0, μ (e i)

theorem support_update {e : Fin n → A} {i : Fin n} (hi : e i = 0) {a : A} (ha : a ≠ 0) :
    (Finset.univ.filter fun j => Function.update e i a j ≠ 0) = insert i (Finset.univ.filter fun j => e j ≠ 0) := by
  ext j
  by_cases h : j = i
  · subst h; simp [ha]
  · simp [h, Function.update_of_ne h]

theorem siteWeight_update (μ : A → ℚ) {e : Fin n → A} {i : Fin n} (hi : e i = 0) {a : A} (ha : a ≠ 0) :
    siteWeight μ (Function.update e i a) = μ a * siteWeight μ e := by
  unfold siteWeight
  rw [support_update hi ha, Finset.prod_insert (by simp [hi]), Function.update_self]
  congr 1
  refine Finset.prod_congr rfl fun j hj => ?_
  have : j ≠ i := by rintro rfl; simp [hi] at hj
  rw [Function.update_of_ne this]

/-- Choosing a place and a value first counts each error once for each of its places. -/
theorem sum_errorsOn_succ (μ : A → ℚ) (hμ : μ 0 = 0) (h : (Fin n → A) → ℚ) (s : Finset (Fin n)) (w : ℕ) :
    ∑ i ∈ s, ∑ a, μ a * ∑ e ∈ errorsOn (s.erase i) w, siteWeight μ e * h (Function.update e i a) =
      (w + 1) * ∑ e ∈ errorsOn s (w + 1), siteWeight μ e * h e := by
  have key : ∀ i ∈ s, ∑ a, μ a * ∑ e ∈ errorsOn (s.erase i) w, siteWeight μ e * h (Function.update e i a) =
      ∑ e ∈ errorsOn s (w + 1), if e i ≠ 0 then siteWeight μ e * h e else 0 := by
    intro i hi
    rw [← Finset.sum_filter]
    have e1 : ∑ a, μ a * ∑ e ∈ errorsOn (s.erase i) w, siteWeight μ e * h (Function.update e i a) =
        ∑ x ∈ (Finset.univ.filter fun a : A => a ≠ 0) ×ˢ (errorsOn (A := A) (s.erase i) w),
          siteWeight μ (Function.update x.2 i x.1) * h (Function.update x.2 i x.1) := by
      rw [Finset.sum_product, Finset.sum_filter]
      refine Finset.sum_congr rfl fun a _ => ?_
      split_ifs with ha
      · rw [Finset.mul_sum]
        refine Finset.sum_congr rfl fun e he => ?_
        have h0 : e i = 0 := by
          by_contra hne
          exact absurd ((mem_errorsOn.1 he).1 i hne) (by simp)
        rw [siteWeight_update μ h0 ha, mul_assoc]
      · rw [not_not] at ha
        rw [ha, hμ, zero_mul]
    rw [e1]
    refine Finset.sum_bij (fun x _ => Function.update x.2 i x.1) ?_ ?_ ?_ ?_
    · rintro ⟨a, e⟩ hx
      rw [Finset.mem_product, Finset.mem_filter] at hx
      obtain ⟨⟨-, ha⟩, he⟩ := hx
      simp only at ha he
      obtain ⟨h1, h2⟩ := mem_errorsOn.1 he
      have h0 : e i = 0 := by
        by_contra hne
        exact absurd (h1 i hne) (by simp)
      rw [Finset.mem_filter, mem_errorsOn, support_update h0 ha, Finset.card_insert_of_notMem (by simp [h0]), h2]
      refine ⟨⟨fun j hj => ?_, rfl⟩, by simpa using ha⟩
      by_cases hji : j = i
      · rw [hji]; exact hi
      · rw [Function.update_of_ne hji] at hj
        exact Finset.mem_of_mem_erase (h1 j hj)
    · rintro ⟨a, e⟩ hx ⟨a', e'⟩ hx' heq
      rw [Finset.mem_product, Finset.mem_filter] at hx hx'
      have z : ∀ f : Fin n → A, f ∈ errorsOn (s.erase i) w → f i = 0 := by
        intro f hf
        by_contra hne
        exact absurd ((mem_errorsOn.1 hf).1 i hne) (by simp)
      simp only at heq
      have ha : a = a' := by
        have := congrFun heq i
        simpa using this
      have he : e = e' := by
        funext j
        by_cases hji : j = i
        · rw [hji, z e hx.2, z e' hx'.2]
        · have := congrFun heq j
          rwa [Function.update_of_ne hji, Function.update_of_ne hji] at this
      rw [ha, he]
    · intro e he
      rw [Finset.mem_filter, mem_errorsOn] at he
      obtain ⟨⟨h1, h2⟩, h3⟩ := he
      refine ⟨(e i, Function.update e i 0), ?_, by simp⟩
      rw [Finset.mem_product, Finset.mem_filter, mem_errorsOn]
      refine ⟨⟨Finset.mem_univ _, h3⟩, fun j hj => ?_, ?_⟩
      · by_cases hji : j = i
        · subst hji; simp at hj
        · simp only [Function.update_of_ne hji] at hj
          exact Finset.mem_erase.2 ⟨hji, h1 j hj⟩
      · have h4 := support_update (e := Function.update e i 0) (i := i) (by simp) h3
        rw [Function.update_idem, Function.update_eq_self] at h4
        rw [h4, Finset.card_insert_of_notMem (by simp)] at h2
        simpa using h2
    · rintro ⟨a, e⟩ _
      rfl
  rw [Finset.sum_congr rfl key, Finset.sum_comm, Finset.mul_sum]
  refine Finset.sum_congr rfl fun e he => ?_
  obtain ⟨h1, h2⟩ := mem_errorsOn.1 he
  rw [← Finset.sum_filter, Finset.sum_const, nsmul_eq_mul]
  congr 1
  have : s.filter (fun i => e i ≠ 0) = Finset.univ.filter fun i => e i ≠ 0 := by
    ext i; simp only [Finset.mem_filter, Finset.mem_univ, true_and]; exact ⟨fun h => h.2, fun h => ⟨h1 i h, h⟩⟩
  rw [this, h2]
  push_cast
  rfl

/-- Sampling places and then values yields each error of a given weight in proportion to its weight. -/
theorem meanSample_meanAll (μ : A → ℚ) (hμ : μ 0 = 0) : ∀ (w : ℕ) (pool : List (Fin n)) (_ : pool.Nodup)
    (_ : w ≤ pool.length) (h : (Fin n → A) → ℚ),
    (pool.length.choose w : ℚ) * meanSample pool w (fun locs => meanAll μ w fun vals => h (placeValues locs vals)) =
      ∑ e ∈ errorsOn pool.toFinset w, siteWeight μ e * h e
  | 0, pool, _, _, h => by
    simp only [meanSample, meanAll, Nat.choose_zero_right, Nat.cast_one, one_mul]
    have : errorsOn pool.toFinset 0 = ({0} : Finset (Fin n → A)) := by
      ext e
      rw [mem_errorsOn, Finset.mem_singleton]
      constructor
      · rintro ⟨-, h2⟩
        rw [Finset.card_eq_zero, Finset.filter_eq_empty_iff] at h2
        funext i
        simpa using h2 (Finset.mem_univ i)
      · rintro rfl
        simp
    rw [this, Finset.sum_singleton, placeValues_nil]
    simp [siteWeight]
  | w + 1, pool, hn, hw, h => by
    have hstep : meanSample pool (w + 1) (fun locs => meanAll μ (w + 1) fun vals => h (placeValues locs vals)) =
        (∑ i ∈ pool.toFinset, ∑ a, μ a * meanSample (pool.erase i) w (fun locs => meanAll μ w fun vals =>
          h (Function.update (placeValues locs vals) i a))) / pool.length := by
      rw [meanSample, List.sum_toFinset _ hn]
      congr 2
      refine List.map_congr_left fun i hi => ?_
      simp only [meanAll]
      rw [meanSample_sum]
      refine Finset.sum_congr rfl fun a _ => ?_
      congr 1
      refine meanSample_congr w _ fun locs h1 h2 h3 => ?_
      have h4 : i ∉ locs := fun hc => ((List.Nodup.mem_erase_iff hn).1 (h1 i hc)).1 rfl
      simp only [placeValues_cons h4]
    have hpos : 0 < pool.length := by omega
    have hlen : ∀ i ∈ pool, (pool.erase i).length = pool.length - 1 := fun i hi => List.length_erase_of_mem hi
    have hset : ∀ i ∈ pool, (pool.erase i).toFinset = pool.toFinset.erase i := by
      intro i _
      ext j
      simp [List.Nodup.mem_erase_iff hn]
    have ih : ∀ i ∈ pool.toFinset, ∀ a, ((pool.length - 1).choose w : ℚ) * meanSample (pool.erase i) w (fun locs =>
        meanAll μ w fun vals => h (Function.update (placeValues locs vals) i a)) =
          ∑ e ∈ errorsOn (pool.toFinset.erase i) w, siteWeight μ e * h (Function.update e i a) := by
      intro i hi a
      rw [List.mem_toFinset] at hi
      rw [← hset i hi, ← hlen i hi]
      exact meanSample_meanAll μ hμ w (pool.erase i) (hn.erase i) (by rw [hlen i hi]; omega) fun e => h (Function.update e i a)
    rw [hstep]
    have hc : (pool.length : ℚ) * ((pool.length - 1).choose w : ℚ) = (pool.length.choose (w + 1) : ℚ) * (w + 1) := by
      have := Nat.add_one_mul_choose_eq (pool.length - 1) w
      rw [Nat.sub_add_cancel hpos] at this
      exact_mod_cast this
    have hne : (pool.length : ℚ) ≠ 0 := by exact_mod_cast hpos.ne'
    have hw1 : ((w : ℚ) + 1) ≠ 0 := by positivity
    have h1 := sum_errorsOn_succ μ hμ h pool.toFinset w
    have h2 : ∑ i ∈ pool.toFinset, ∑ a, μ a * ∑ e ∈ errorsOn (pool.toFinset.erase i) w, siteWeight μ e * h (Function.update e i a) =
        ((pool.length - 1).choose w : ℚ) * ∑ i ∈ pool.toFinset, ∑ a, μ a * meanSample (pool.erase i) w (fun locs =>
          meanAll μ w fun vals => h (Function.update (placeValues locs vals) i a)) := by
      rw [Finset.mul_sum]
      refine Finset.sum_congr rfl fun i hi => ?_
      rw [Finset.mul_sum]
      refine Finset.sum_congr rfl fun a _ => ?_
      rw [← ih i hi a]
      ring
    rw [h2] at h1
    set S := ∑ i ∈ pool.toFinset, ∑ a, μ a * meanSample (pool.erase i) w (fun locs =>
          meanAll μ w fun vals => h (Function.update (placeValues locs vals) i a)) with hS
    have h3 : ((w : ℚ) + 1) * ((pool.length.choose (w + 1) : ℚ) * (S / pool.length)) =
        (w + 1) * ∑ e ∈ errorsOn pool.toFinset (w + 1), siteWeight μ e * h e := by
      rw [← h1]
      field_simp
      rw [mul_assoc S, hc]
      ring
    exact mul_left_cancel₀ hw1 h3

end Weight

end QLDPC
