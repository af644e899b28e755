import Verif.Lemmas.CodeSpace
import Mathlib.LinearAlgebra.FiniteDimensional.Basic
import Mathlib.Analysis.Complex.Basic

/-! # Encoding isometries -/

namespace QLDPC

open Spec SPauli ComplexConjugate

variable {n k : ℕ}

/-! ## Inner products -/

noncomputable def inner' (φ ψ : State n) : ℂ := ∑ s, conj (φ s) * ψ s

theorem inner'_self (ψ : State n) : inner' ψ ψ = (stateNorm ψ : ℂ) := by
  unfold inner' stateNorm
  rw [Complex.ofReal_sum]
  exact Finset.sum_congr rfl fun s _ => (Complex.normSq_eq_conj_mul_self).symm

theorem sgn_conj (a : ZMod 2) : conj (sgn a) * sgn a = 1 := by
  unfold sgn; split <;> simp

theorem ipow_conj (a : ZMod 4) : conj (ipow a) * ipow a = 1 := by
  unfold ipow
  rw [map_pow, ← mul_pow, Complex.conj_I, neg_mul, Complex.I_mul_I, neg_neg, one_pow]

theorem inner'_act (p : SPauli n) (φ ψ : State n) : inner' (p.act φ) (p.act ψ) = inner' φ ψ := by
  unfold inner'
  rw [← Equiv.sum_comp (Equiv.addRight (xPart p.op)) fun s => conj (φ s) * ψ s]
  refine Finset.sum_congr rfl fun b _ => ?_
  simp only [SPauli.act, map_mul, Equiv.coe_addRight]
  have h1 := ipow_conj p.phase
  have h2 := sgn_conj (∑ i, zPart p.op i * (b i + xPart p.op i))
  generalize sgn (∑ i, zPart p.op i * (b i + xPart p.op i)) = u at h2
  linear_combination (conj (φ (b + xPart p.op)) * ψ (b + xPart p.op) * conj u * u) * h1 +
    (conj (φ (b + xPart p.op)) * ψ (b + xPart p.op)) * h2

theorem inner'_sum {ι : Type} [Fintype ι] (c : ι → ℂ) (v : ι → State n) (φ : State n) :
    inner' φ (∑ i, c i • v i) = ∑ i, c i * inner' φ (v i) := by
  unfold inner'
  simp only [Finset.sum_apply, Pi.smul_apply, smul_eq_mul, Finset.mul_sum]
  rw [Finset.sum_comm]
  refine Finset.sum_congr rfl fun i _ => Finset.sum_congr rfl fun s _ => ?_
  ring

theorem inner'_conj (φ ψ : State n) : inner' φ ψ = conj (inner' ψ φ) := by
  unfold inner'
  rw [map_sum]
  refine Finset.sum_congr rfl fun s _ => ?_
  rw [map_mul, Complex.conj_conj, mul_comm]

theorem norm_sum {ι : Type} [Fintype ι] [DecidableEq ι] (c : ι → ℂ) (v : ι → State n)
    (hv : ∀ i j, inner' (v i) (v j) = if i = j then 1 else 0) :
    stateNorm (∑ i, c i • v i) = ∑ i, Complex.normSq (c i) := by
  have : inner' (∑ i, c i • v i) (∑ i, c i • v i) = ((∑ i, Complex.normSq (c i) : ℝ) : ℂ) := by
    rw [inner'_sum, Complex.ofReal_sum]
    refine Finset.sum_congr rfl fun i _ => ?_
    rw [inner'_conj, inner'_sum, map_sum, Finset.sum_eq_single i]
    · rw [hv, if_pos rfl, mul_one, Complex.normSq_eq_conj_mul_self, mul_comm]
    · intro j _ hj
      rw [hv, if_neg hj.symm, mul_zero, map_zero]
    · intro h; exact absurd (Finset.mem_univ i) h
  rw [inner'_self] at this
  exact_mod_cast this

/-! ## Isometries -/

namespace Iso

variable {V : State k → State n}

/-- An isometry as a linear map. -/
noncomputable def toLin (h : IsIsometry V) : State k →ₗ[ℂ] State n where
  toFun := V
  map_add' ψ φ := by have := h.linear 1 1 ψ φ; simpa using this
  map_smul' a ψ := by have := h.linear a 0 ψ 0; simpa using this

theorem injective (h : IsIsometry V) : Function.Injective V := by
  have : Function.Injective (toLin h) := by
    rw [← LinearMap.ker_eq_bot, LinearMap.ker_eq_bot']
    intro ψ hψ
    have := h.norm ψ
    rw [show V ψ = 0 from hψ] at this
    exact stateNorm_eq_zero (by rw [← this]; simp [stateNorm])
  exact this

end Iso

/-- The basis state `0`. -/
noncomputable def ket0 : State k := Pi.single 0 1

theorem act_xOnly (x b : Fin k → ZMod 2) (ψ : State k) : (⟨0, Fin.append x 0⟩ : SPauli k).act ψ b = ψ (b + x) := by
  simp only [SPauli.act, xPart_append, zPart_append, ipow_zero, Pi.zero_apply, zero_mul, Finset.sum_const_zero, sgn, if_true, one_mul]

theorem act_ket0 (x : Fin k → ZMod 2) : (⟨0, Fin.append x 0⟩ : SPauli k).act ket0 = Pi.single x 1 := by
  funext b
  rw [act_xOnly]
  unfold ket0
  have h2 : x + x = 0 := by funext i; exact CharTwo.add_self_eq_zero _
  by_cases h : b = x
  · subst h; rw [h2]; simp
  · rw [Pi.single_eq_of_ne h, Pi.single_eq_of_ne]
    intro e
    apply h
    calc b = b + x + x := by rw [add_assoc, h2, add_zero]
      _ = x := by rw [e, zero_add]

theorem ket_sum (ψ : State k) : ψ = ∑ x, ψ x • (Pi.single x 1 : State k) := by
  funext b
  rw [Finset.sum_apply, Finset.sum_eq_single b]
  · simp
  · intro x _ hx; simp [hx.symm]
  · intro h; exact absurd (Finset.mem_univ b) h

/-- Schur's lemma for Pauli operators: linear operators that commute with all of them are multiples of the identity. -/
theorem schur (M : State k →ₗ[ℂ] State k) (h : ∀ P ψ, M (SPauli.act P ψ) = P.act (M ψ)) : ∃ c : ℂ, ∀ ψ, M ψ = c • ψ := by
  have h0 : M ket0 = M ket0 0 • ket0 := by
    funext b
    by_cases hb : b = 0
    · subst hb; simp [ket0]
    · have : ∃ j, b j ≠ 0 := by
        by_contra hc
        push Not at hc
        exact hb (funext hc)
      obtain ⟨j, hj⟩ := this
      have e1 : (SPauli.Z j : SPauli k).act ket0 = ket0 := by
        funext s
        rw [act_Z]
        by_cases hs : s = 0
        · subst hs; simp [sgn]
        · simp [ket0, hs]
      have e2 := congrFun (h (SPauli.Z j) ket0) b
      rw [e1, act_Z, sgn, if_neg hj] at e2
      have e3 : M ket0 b = 0 := by linear_combination e2 / 2
      rw [e3]
      simp [ket0, hb]
  refine ⟨M ket0 0, fun ψ => ?_⟩
  have hx : ∀ x : Fin k → ZMod 2, M (Pi.single x 1) = M ket0 0 • (Pi.single x 1 : State k) := by
    intro x
    rw [← act_ket0, h]
    conv_lhs => rw [h0]
    rw [← actL_apply, map_smul]; rfl
  conv_lhs => rw [ket_sum ψ]
  rw [map_sum]
  conv_rhs => rw [ket_sum ψ]
  rw [Finset.smul_sum]
  refine Finset.sum_congr rfl fun x _ => ?_
  rw [map_smul, hx, smul_comm]

/-- A unitary is determined, up to a phase, by what it does to Pauli operators. -/
theorem isometry_unique {V W : State k → State k} (hV : IsIsometry V) (hW : IsIsometry W) {t : SPauli k → SPauli k}
    (h1 : ∀ P ψ, V (SPauli.act P ψ) = (t P).act (V ψ)) (h2 : ∀ P ψ, W (SPauli.act P ψ) = (t P).act (W ψ)) :
    ∃ c : ℂ, Complex.normSq c = 1 ∧ ∀ ψ, V ψ = c • W ψ := by
  let e := LinearEquiv.ofInjectiveEndo (Iso.toLin hW) (Iso.injective hW)
  have he : ∀ ψ, e ψ = W ψ := fun ψ => rfl
  have hs : ∀ φ, W (e.symm φ) = φ := fun φ => by rw [← he, LinearEquiv.apply_symm_apply]
  obtain ⟨c, hc⟩ := schur (e.symm.toLinearMap ∘ₗ Iso.toLin hV) (by
    intro P ψ
    change e.symm (V (P.act ψ)) = P.act (e.symm (V ψ))
    apply e.injective
    rw [LinearEquiv.apply_symm_apply, he, h1, h2, hs])
  have hc' : ∀ ψ, V ψ = c • W ψ := by
    intro ψ
    have := congrArg e (hc ψ)
    change e (e.symm (V ψ)) = _ at this
    rw [LinearEquiv.apply_symm_apply, map_smul] at this
    exact this
  refine ⟨c, ?_, hc'⟩
  have n0 : stateNorm (ket0 : State k) = 1 := by
    unfold stateNorm ket0
    rw [Finset.sum_eq_single 0]
    · simp
    · intro b _ hb; simp [hb]
    · intro h; exact absurd (Finset.mem_univ _) h
  have := hV.norm ket0
  rw [hc', n0] at this
  have hn : ∀ φ : State k, stateNorm (c • φ) = Complex.normSq c * stateNorm φ := by
    intro φ
    unfold stateNorm
    rw [Finset.mul_sum]
    exact Finset.sum_congr rfl fun s _ => by rw [Pi.smul_apply, smul_eq_mul, Complex.normSq_mul]
  rw [hn, hW.norm, n0, mul_one] at this
  exact this

end QLDPC
