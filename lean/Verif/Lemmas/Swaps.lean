import Verif.Model.Circuits
import Mathlib.Data.List.Perm.Subperm
import Mathlib.Data.List.Nodup

/-! # Lemmas about SWAP circuits -/

namespace QLDPC

theorem runCircuit_append (c d : List Gate) (f : ℕ → ZMod 2 × ZMod 2) :
    runCircuit (c ++ d) f = runCircuit d (runCircuit c f) := by
  simp [runCircuit]

theorem runCircuit_cons (g : Gate) (c : List Gate) (f : ℕ → ZMod 2 × ZMod 2) :
    runCircuit (g :: c) f = runCircuit c (g.act f) := rfl

theorem act_swap (a b : ℕ) (f : ℕ → ZMod 2 × ZMod 2) (i : ℕ) :
    (Gate.SWAP a b).act f i = if i = a then f b else if i = b then f a else f i := rfl

/-- the swaps of one cycle -/
theorem run_cycleSwaps (a : ℕ) (l : List ℕ) (h : (a :: l).Nodup) (f : ℕ → ZMod 2 × ZMod 2) :
    (∀ x, x ∉ a :: l → runCircuit (cycleSwaps (a :: l)) f x = f x) ∧
    runCircuit (cycleSwaps (a :: l)) f a = f ((a :: l).getLast (by simp)) ∧
    ∀ i (hi : i + 1 < (a :: l).length), runCircuit (cycleSwaps (a :: l)) f (a :: l)[i + 1] = f (a :: l)[i] := by
  induction l generalizing f with
  | nil => exact ⟨fun _ _ => rfl, rfl, fun i hi => by simp at hi⟩
  | cons b l ih =>
    have hab : a ≠ b := by
      rintro rfl
      simp at h
    have hal : a ∉ l := by simp at h; tauto
    have hbl : b ∉ l := by simp at h; tauto
    have hl : l.Nodup := by simp at h; tauto
    obtain ⟨h1, h2, h3⟩ := ih (List.nodup_cons.2 ⟨hal, hl⟩) ((Gate.SWAP a b).act f)
    have hrun : runCircuit (cycleSwaps (a :: b :: l)) f = runCircuit (cycleSwaps (a :: l)) ((Gate.SWAP a b).act f) := rfl
    rw [hrun]
    refine ⟨?_, ?_, ?_⟩
    · intro x hx
      simp only [List.mem_cons, not_or] at hx
      rw [h1 x (by simp only [List.mem_cons, not_or]; exact ⟨hx.1, hx.2.2⟩), act_swap, if_neg hx.1, if_neg hx.2.1]
    · rw [h2, act_swap]
      cases l with
      | nil => simp
      | cons c l =>
        have : (a :: c :: l).getLast (by simp) ∈ c :: l := by
          rw [List.getLast_cons (by simp)]
          exact List.getLast_mem _
        rw [if_neg (fun he => hal (by rw [← he]; exact this)), if_neg (fun he => hbl (by rw [← he]; exact this))]
        congr 1
    · intro i hi
      cases i with
      | zero =>
        show runCircuit _ _ b = f a
        rw [h1 b (by simp only [List.mem_cons, not_or]; exact ⟨hab.symm, hbl⟩), act_swap, if_neg hab.symm, if_pos rfl]
      | succ i =>
        have hi' : i + 1 < (a :: l).length := by simpa using hi
        have := h3 i hi'
        have e : (a :: b :: l)[i + 1 + 1] = (a :: l)[i + 1] := rfl
        rw [e, this, act_swap]
        cases i with
        | zero => simp
        | succ i =>
          have hm : l[i]'(by simp at hi; omega) ∈ l := List.getElem_mem _
          simp only [List.getElem_cons_succ]
          rw [if_neg (fun he => hal (by rw [← he]; exact hm)), if_neg (fun he => hbl (by rw [← he]; exact hm))]

variable {p : ℕ → ℕ} {n : ℕ}

/-- a stretch of a cycle -/
structure IsPath (p : ℕ → ℕ) (n : ℕ) (S l : List ℕ) : Prop where
  nodup : l.Nodup
  lt : ∀ x ∈ l, x < n
  new : ∀ x ∈ l, x ∉ S
  next : ∀ i (hi : i + 1 < l.length), l[i + 1] = p l[i]

theorem followCycle_spec (hp : Function.Injective p) (hn : ∀ x, x < n → p x < n) (S : List ℕ)
    (hS : ∀ x, x ∈ S ↔ p x ∈ S) (fuel : ℕ) (path checked : List ℕ) (j : ℕ) (h0 : path ≠ []) (hpath : IsPath p n S path)
    (hj : path.getLast h0 = j) (hc : ∀ x, x ∈ checked ↔ x ∈ path ∨ x ∈ S) (hf : n + 1 ≤ fuel + path.length) :
    IsPath p n S (path ++ followCycle p fuel checked j) ∧
      (path ++ followCycle p fuel checked j).getLast?.map p = path.head? := by
  have hlen : path.length ≤ n := by
    have := (List.subperm_of_subset hpath.nodup (l₂ := List.range n) (fun x hx => by simpa using hpath.lt x hx)).length_le
    simpa using this
  have hjm : j ∈ path := hj ▸ List.getLast_mem h0
  induction fuel generalizing path checked j with
  | zero => omega
  | succ fuel ih =>
    unfold followCycle
    split_ifs with hmem
    · refine ⟨by simpa using hpath, ?_⟩
      rw [List.append_nil, List.getLast?_eq_some_getLast h0, hj, List.head?_eq_some_head h0, Option.map_some]
      congr 1
      rcases (hc _).1 hmem with hm | hm
      · obtain ⟨t, ht, he⟩ := List.mem_iff_getElem.1 hm
        cases t with
        | zero => rw [← he, List.head_eq_getElem]
        | succ t =>
          exfalso
          rw [hpath.next t ht] at he
          have := hp he
          rw [← hj, List.getLast_eq_getElem, hpath.nodup.getElem_inj_iff] at this
          omega
      · exact absurd ((hS j).2 hm) (hpath.new j hjm)
    · have hnew : p j ∉ path ∧ p j ∉ S := by
        rw [hc] at hmem
        tauto
      have hpath' : IsPath p n S (path ++ [p j]) := by
        refine ⟨?_, ?_, ?_, ?_⟩
        · rw [List.nodup_append]
          refine ⟨hpath.nodup, by simp, ?_⟩
          intro x hx y hy
          rw [List.mem_singleton] at hy
          subst hy
          rintro rfl
          exact hnew.1 hx
        · intro x hx
          rcases List.mem_append.1 hx with h | h
          · exact hpath.lt x h
          · rw [List.mem_singleton] at h
            subst h
            exact hn j (hpath.lt j hjm)
        · intro x hx
          rcases List.mem_append.1 hx with h | h
          · exact hpath.new x h
          · rw [List.mem_singleton] at h
            subst h
            exact hnew.2
        · intro i hi
          simp only [List.length_append, List.length_singleton] at hi
          by_cases hlt : i + 1 < path.length
          · rw [List.getElem_append_left hlt, List.getElem_append_left (by omega)]
            exact hpath.next i hlt
          · have he : i + 1 = path.length := by omega
            have he' : i = path.length - 1 := by omega
            rw [List.getElem_append_right (by omega), List.getElem_append_left (by omega)]
            simp only [he, Nat.sub_self, List.getElem_cons_zero]
            rw [← hj, List.getLast_eq_getElem]
            congr 2
            exact he'.symm
      have := ih (path ++ [p j]) (p j :: checked) (p j) (by simp) hpath' (by simp)
        (by
          intro x
          simp only [List.mem_cons, List.mem_append, hc, List.not_mem_nil, or_false]
          tauto)
        (by simp only [List.length_append, List.length_singleton]; omega)
        (by
          have := (List.subperm_of_subset hpath'.nodup (l₂ := List.range n)
            (fun x hx => by simpa using hpath'.lt x hx)).length_le
          simpa using this) (by simp)
      rw [List.append_assoc, List.singleton_append] at this
      refine ⟨this.1, ?_⟩
      rw [List.head?_append_of_ne_nil _ h0] at this
      exact this.2

theorem run_cycle (hp : Function.Injective p) {S : List ℕ} (l : List ℕ) (h0 : l ≠ []) (hl : IsPath p n S l)
    (hlast' : l.getLast?.map p = l.head?) (f : ℕ → ZMod 2 × ZMod 2) :
    (∀ x, x ∉ l → runCircuit (cycleSwaps l) f x = f x) ∧ (∀ x ∈ l, runCircuit (cycleSwaps l) f (p x) = f x) ∧
      ∀ x, x ∈ l ↔ p x ∈ l := by
  cases l with
  | nil => exact absurd rfl h0
  | cons a l =>
    have hlast : p ((a :: l).getLast h0) = a := by
      rw [List.getLast?_eq_some_getLast h0] at hlast'
      simpa using hlast'
    obtain ⟨h1, h2, h3⟩ := run_cycleSwaps a l hl.nodup f
    refine ⟨h1, ?_, ?_⟩
    · intro x hx
      obtain ⟨t, ht, rfl⟩ := List.mem_iff_getElem.1 hx
      by_cases hlt : t + 1 < (a :: l).length
      · rw [← hl.next t hlt]
        exact h3 t hlt
      · have e : t = (a :: l).length - 1 := by omega
        have : (a :: l)[t] = (a :: l).getLast (by simp) := by
          rw [List.getLast_eq_getElem]
          congr 1
        rw [this, hlast]
        exact h2
    · intro x
      constructor
      · intro hx
        obtain ⟨t, ht, rfl⟩ := List.mem_iff_getElem.1 hx
        by_cases hlt : t + 1 < (a :: l).length
        · rw [← hl.next t hlt]
          exact List.getElem_mem _
        · have e : t = (a :: l).length - 1 := by omega
          have : (a :: l)[t] = (a :: l).getLast (by simp) := by
            rw [List.getLast_eq_getElem]
            congr 1
          rw [this, hlast]
          simp
      · intro hx
        obtain ⟨t, ht, he⟩ := List.mem_iff_getElem.1 hx
        cases t with
        | zero =>
          simp only [List.getElem_cons_zero] at he
          rw [← hp (hlast.trans he)]
          exact List.getLast_mem _
        | succ t =>
          rw [hl.next t ht] at he
          rw [← hp he]
          exact List.getElem_mem _

theorem run_cycleLoop (hp : Function.Injective p) (hn : ∀ x, x < n → p x < n) (hout : ∀ x, n ≤ x → p x = x)
    (l S : List ℕ) (hS : ∀ x, x ∈ S ↔ p x ∈ S) (hSn : ∀ x ∈ S, x < n) (hln : ∀ x ∈ l, x < n)
    (hl : ∀ x, x < n → x ∉ S → x ∈ l) (f : ℕ → ZMod 2 × ZMod 2) :
    (∀ x ∈ S, runCircuit ((cycleLoop p n l S).flatMap cycleSwaps) f x = f x) ∧
      ∀ x, x ∉ S → runCircuit ((cycleLoop p n l S).flatMap cycleSwaps) f (p x) = f x := by
  induction l generalizing S f with
  | nil =>
    refine ⟨fun _ _ => rfl, fun x hx => ?_⟩
    have : n ≤ x := by
      by_contra h
      exact absurd (hl x (by omega) hx) (by simp)
    rw [hout x this]
    rfl
  | cons i l ih =>
    unfold cycleLoop
    split_ifs with hi
    · refine ih S hS hSn (fun x hx => hln x (List.mem_cons_of_mem _ hx)) (fun x h1 h2 => ?_) f
      rcases List.mem_cons.1 (hl x h1 h2) with rfl | h
      · exact absurd hi h2
      · exact h
    · have hin : i < n := hln i (by simp)
      have hfc := followCycle_spec hp hn S hS n [i] (i :: S) i (by simp)
        ⟨by simp, by simpa using hin, by simpa using hi, by simp⟩ rfl (by simp) (by simp)
      simp only [List.singleton_append] at hfc
      show (∀ x ∈ S, runCircuit ((if 1 < (i :: followCycle p n (i :: S) i).length then
          (i :: followCycle p n (i :: S) i) :: cycleLoop p n l ((i :: followCycle p n (i :: S) i) ++ S) else
          cycleLoop p n l ((i :: followCycle p n (i :: S) i) ++ S)).flatMap cycleSwaps) f x = f x) ∧
        ∀ x, x ∉ S → runCircuit ((if 1 < (i :: followCycle p n (i :: S) i).length then
          (i :: followCycle p n (i :: S) i) :: cycleLoop p n l ((i :: followCycle p n (i :: S) i) ++ S) else
          cycleLoop p n l ((i :: followCycle p n (i :: S) i) ++ S)).flatMap cycleSwaps) f (p x) = f x
      generalize hcyc : i :: followCycle p n (i :: S) i = cyc at hfc ⊢
      have hne : cyc ≠ [] := by rw [← hcyc]; simp
      have hfc2 : cyc.getLast?.map p = cyc.head? := by
        rw [hfc.2, ← hcyc]
        rfl
      obtain ⟨r1, r2, r3⟩ := run_cycle hp cyc hne hfc.1 hfc2 f
      have key : runCircuit ((if 1 < cyc.length then cyc :: cycleLoop p n l (cyc ++ S) else
          cycleLoop p n l (cyc ++ S)).flatMap cycleSwaps) f =
          runCircuit ((cycleLoop p n l (cyc ++ S)).flatMap cycleSwaps) (runCircuit (cycleSwaps cyc) f) := by
        split_ifs with h1
        · rw [List.flatMap_cons, runCircuit_append]
        · have : cycleSwaps cyc = [] := by
            match cyc, h1 with
            | [], _ => rfl
            | [a], _ => rfl
            | a :: b :: l, h1 => simp at h1
          rw [this]
          rfl
      rw [key]
      obtain ⟨q1, q2⟩ := ih (cyc ++ S)
        (by
          intro x
          rw [List.mem_append, List.mem_append, r3 x, hS x])
        (by
          intro x hx
          rcases List.mem_append.1 hx with h | h
          · exact hfc.1.lt x h
          · exact hSn x h)
        (fun x hx => hln x (List.mem_cons_of_mem _ hx))
        (by
          intro x h1 h2
          rw [List.mem_append, not_or] at h2
          rcases List.mem_cons.1 (hl x h1 h2.2) with rfl | h
          · exact absurd (by rw [← hcyc]; simp) h2.1
          · exact h) (runCircuit (cycleSwaps cyc) f)
      refine ⟨?_, ?_⟩
      · intro x hx
        rw [q1 x (by simp [hx])]
        exact r1 x (fun h => hfc.1.new x h hx)
      · intro x hx
        by_cases hxc : x ∈ cyc
        · rw [q1 (p x) (by rw [List.mem_append]; left; exact (r3 x).1 hxc)]
          exact r2 x hxc
        · rw [q2 x (by rw [List.mem_append]; tauto)]
          exact r1 x hxc

end QLDPC
