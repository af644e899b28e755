import Verif.Lemmas.States
import Verif.Lemmas.TransversalSearch
import Mathlib.LinearAlgebra.Dimension.Constructions
import Mathlib.LinearAlgebra.FiniteDimensional.Lemmas

/-! # Code spaces and encoding isometries -/

namespace QLDPC

open Spec SPauli

variable {n : ℕ}

/-- Pauli operators are linear. -/
noncomputable def actL (p : SPauli n) : State n →ₗ[ℂ] State n where
  toFun := p.act
  map_add' ψ φ := by funext b; simp only [SPauli.act, Pi.add_apply]; ring
  map_smul' a ψ := by funext b; simp only [SPauli.act, Pi.smul_apply, smul_eq_mul, RingHom.id_apply]; ring

theorem actL_apply (p : SPauli n) (ψ : State n) : actL p ψ = p.act ψ := rfl

/-- The space of code states. -/
noncomputable def codeSpace (S : List (Fin (n + n) → ZMod 2)) : Submodule ℂ (State n) where
  carrier := {ψ | IsCodeState S ψ}
  add_mem' := by
    intro ψ φ hψ hφ s hs
    rw [← actL_apply, map_add, actL_apply, actL_apply, hψ s hs, hφ s hs]
  zero_mem' := by
    intro s hs
    rw [← actL_apply, map_zero]
  smul_mem' := by
    intro a ψ hψ s hs
    rw [← actL_apply, map_smul, actL_apply, hψ s hs]

theorem mem_codeSpace {S : List (Fin (n + n) → ZMod 2)} {ψ : State n} : ψ ∈ codeSpace S ↔ IsCodeState S ψ := Iff.rfl

theorem span_codeStates (S : List (Fin (n + n) → ZMod 2)) : Submodule.span ℂ {ψ | IsCodeState S ψ} = codeSpace S :=
  Submodule.span_eq (codeSpace S)

theorem finrank_half (V W : Submodule ℂ (State n)) (A B : State n →ₗ[ℂ] State n) (hA : ∀ ψ, A (A ψ) = ψ)
    (hB : ∀ ψ, B (B ψ) = ψ) (hAB : ∀ ψ, A (B ψ) = -B (A ψ)) (hAV : ∀ ψ ∈ V, A ψ ∈ V) (hBV : ∀ ψ ∈ V, B ψ ∈ V)
    (hW : ∀ ψ, ψ ∈ W ↔ ψ ∈ V ∧ A ψ = ψ) : Module.finrank ℂ V = 2 * Module.finrank ℂ W := by
  let f : (W × W) →ₗ[ℂ] V := LinearMap.codRestrict V (LinearMap.coprod W.subtype (B ∘ₗ W.subtype)) (by
    rintro ⟨a, b⟩
    have ha := ((hW a).1 a.2).1
    have hb := ((hW b).1 b.2).1
    simp only [LinearMap.coprod_apply, Submodule.subtype_apply, LinearMap.comp_apply]
    exact V.add_mem ha (hBV _ hb))
  have hf : ∀ x : W × W, ((f x : V) : State n) = (x.1 : State n) + B (x.2 : State n) := fun x => rfl
  have hbij : Function.Bijective f := by
    constructor
    · rw [← LinearMap.ker_eq_bot, LinearMap.ker_eq_bot']
      rintro ⟨a, b⟩ h0
      have h1 : (a : State n) + B (b : State n) = 0 := by rw [← hf (a, b), h0]; rfl
      have h2 : (a : State n) - B (b : State n) = 0 := by
        have := congrArg A h1
        rw [map_add, hAB, ((hW b).1 b.2).2, ((hW a).1 a.2).2, map_zero] at this
        rw [sub_eq_add_neg]; exact this
      have h3 : (2 : ℂ) • (a : State n) = 0 := by
        rw [two_smul]
        calc (a : State n) + a = (a + B b) + (a - B b) := by abel
          _ = 0 := by rw [h1, h2, add_zero]
      have h4 : (a : State n) = 0 := by
        rcases smul_eq_zero.1 h3 with h | h
        · norm_num at h
        · exact h
      rw [h4, zero_add] at h1
      have h5 : (b : State n) = 0 := by rw [← hB b, h1, map_zero]
      exact Prod.ext (Subtype.ext h4) (Subtype.ext h5)
    · rintro ⟨ψ, hψ⟩
      have ha : (1 / 2 : ℂ) • (ψ + A ψ) ∈ W := by
        rw [hW]
        refine ⟨V.smul_mem _ (V.add_mem hψ (hAV _ hψ)), ?_⟩
        rw [map_smul, map_add, hA, add_comm]
      have hb : (1 / 2 : ℂ) • B (ψ - A ψ) ∈ W := by
        rw [hW]
        refine ⟨V.smul_mem _ (hBV _ (V.sub_mem hψ (hAV _ hψ))), ?_⟩
        rw [map_smul, hAB, map_sub, hA, ← map_neg, neg_sub]
      refine ⟨(⟨_, ha⟩, ⟨_, hb⟩), Subtype.ext ?_⟩
      rw [hf]
      change (1 / 2 : ℂ) • (ψ + A ψ) + B ((1 / 2 : ℂ) • B (ψ - A ψ)) = ψ
      rw [map_smul, hB, ← smul_add]
      have : ψ + A ψ + (ψ - A ψ) = (2 : ℂ) • ψ := by rw [two_smul]; abel
      rw [this, smul_smul]
      norm_num
  rw [← (LinearEquiv.ofBijective f hbij).finrank_eq, Module.finrank_prod, two_mul]

/-- Independent, pairwise commuting operators, each with an operator that anticommutes with it and with no later one. -/
def Indep : List (Fin (n + n) → ZMod 2) → Prop
  | [] => True
  | s :: S => (∃ d, sform s d = 1 ∧ ∀ s' ∈ S, sform s' d = 0) ∧ (∀ s' ∈ S, sform s s' = 0) ∧ Indep S

theorem plus_sq (v : Fin (n + n) → ZMod 2) : plus v * plus v = (1 : SPauli n) := signed_plus v

theorem act_plus_sq (v : Fin (n + n) → ZMod 2) (ψ : State n) : (plus v).act ((plus v).act ψ) = ψ := by
  rw [← act_mul, plus_sq, act_one]

theorem act_commute {u v : Fin (n + n) → ZMod 2} (h : sform u v = 0) (ψ : State n) :
    (plus u).act ((plus v).act ψ) = (plus v).act ((plus u).act ψ) := by
  rw [← act_mul, ← act_mul, (commute_iff (plus u) (plus v)).2 h]

theorem act_anticommute {u v : Fin (n + n) → ZMod 2} (h : sform u v = 1) (ψ : State n) :
    (plus u).act ((plus v).act ψ) = -(plus v).act ((plus u).act ψ) := by
  rw [← act_mul, ← act_mul, mul_comm_sform, act_mul, act_scalar]
  have e : (plus u : SPauli n).op = u := rfl
  have e' : (plus v : SPauli n).op = v := rfl
  rw [e, e', h, ipow_double]
  funext b
  simp [sgn]

theorem finrank_codeSpace {S : List (Fin (n + n) → ZMod 2)} (h : Indep S) :
    Module.finrank ℂ (codeSpace S) * 2 ^ S.length = 2 ^ n := by
  induction S with
  | nil =>
    have e : codeSpace ([] : List (Fin (n + n) → ZMod 2)) = ⊤ := by
      rw [eq_top_iff]
      intro ψ _ s hs
      simp at hs
    rw [e, finrank_top, Module.finrank_fintype_fun_eq_card]
    simp [ZMod.card]
  | cons s S ih =>
    obtain ⟨⟨d, hd, hdS⟩, hs, hS⟩ := h
    have key := finrank_half (codeSpace S) (codeSpace (s :: S)) (actL (plus s)) (actL (plus d)) (act_plus_sq s)
      (act_plus_sq d) (act_anticommute hd) (fun ψ hψ s' hs' => by
        rw [actL_apply, act_commute (by rw [sform_comm2]; exact hs s' hs'), hψ s' hs']) (fun ψ hψ s' hs' => by
        rw [actL_apply, act_commute (hdS s' hs'), hψ s' hs']) (fun ψ => by
        rw [mem_codeSpace, mem_codeSpace]
        constructor
        · intro hc
          exact ⟨fun s' hs' => hc s' (List.mem_cons_of_mem _ hs'), hc s List.mem_cons_self⟩
        · rintro ⟨h1, h2⟩ s' hs'
          rcases List.mem_cons.1 hs' with e | hs'
          · subst e; exact h2
          · exact h1 s' hs')
    have := ih hS
    rw [key] at this
    rw [List.length_cons, pow_succ, ← this]
    ring

theorem indep_of_pair {S D : List (Fin (n + n) → ZMod 2)} (hl : D.length = S.length)
    (hS : ∀ p ∈ S, ∀ q ∈ S, sform p q = 0)
    (hp : ∀ (i j : ℕ) (hi : i < D.length) (hj : j < S.length), sform D[i] S[j] = if i = j then 1 else 0) : Indep S := by
  induction S generalizing D with
  | nil => trivial
  | cons s S ih =>
    cases D with
    | nil => simp at hl
    | cons d D =>
      refine ⟨⟨d, ?_, ?_⟩, fun s' hs' => hS s List.mem_cons_self s' (List.mem_cons_of_mem _ hs'),
        ih (D := D) (by simpa using hl) (fun p hp q hq => hS p (List.mem_cons_of_mem _ hp) q (List.mem_cons_of_mem _ hq))
          fun i j hi hj => ?_⟩
      · have := hp 0 0 (by simp) (by simp)
        rw [sform_comm2]; simpa using this
      · intro s' hs'
        obtain ⟨j, hj, rfl⟩ := List.getElem_of_mem hs'
        have := hp 0 (j + 1) (by simp) (by simpa using hj)
        rw [sform_comm2]; simpa using this
      · have := hp (i + 1) (j + 1) (by simpa using hi) (by simpa using hj)
        simpa using this

namespace Frame

variable {S LX LZ GX GZ D : Rows (ZMod 2) (n + n)}

theorem indep (h : Frame S LX LZ GX GZ D) : Indep (LZ ++ GZ ++ S) :=
  indep_of_pair (by rw [h.tab.lenX, h.tab.lenZ]) h.tab.zz h.tab.pair

theorem indep_append {A B : List (Fin (n + n) → ZMod 2)} (h : Indep (A ++ B)) : Indep B := by
  induction A with
  | nil => exact h
  | cons a A ih => exact ih h.2.2

theorem finrank (h : Frame S LX LZ GX GZ D) : Module.finrank ℂ (codeSpace S) = 2 ^ (LX.length + GX.length) := by
  have h1 := finrank_codeSpace (indep_append h.indep)
  have h2 := h.len
  have h3 : (2 : ℕ) ^ n = 2 ^ (LX.length + GX.length) * 2 ^ S.length := by rw [← pow_add, h2]
  rw [h3] at h1
  exact Nat.eq_of_mul_eq_mul_right (by positivity) h1

end Frame

end QLDPC
