import Verif.Props.Weights
import Verif.Props.QuasiCyclicDistance
import Mathlib.LinearAlgebra.Matrix.Rank

/-!
# Property C109: the number of logical qudits of a quasi-cyclic code

A quasi-cyclic code (`/repo/qldpc/codes/quantum.py:200-296`) has two logical qudits for each independent function on the torus
that both of its polynomials annihilate.
-/

namespace QLDPC.Props

open QLDPC QLDPC.Spec

set_option linter.unusedSectionVars false

variable {F : Type} [Field F] [DecidableEq F] {S : Type} [DecidableEq S] {n : ℕ}

/-- The value at the point `i` of a polynomial applied to a function on the torus: each monomial moves the argument. -/
def applyPoly (C : ℤ → F) (d : List (S × ℕ)) (poly : List (Term S)) (w : Fin (d.map Prod.snd).prod → F)
    (i : Fin (d.map Prod.snd).prod) : F :=
  (poly.map fun t => C t.coeff * ∑ j : Fin (d.map Prod.snd).prod, if torusCoords (d.map Prod.snd) j =
    movedBy 1 d (torusCoords (d.map Prod.snd) i) t.exps then w j else 0).sum

theorem applyPoly_eq (C : ℤ → F) (d : List (S × ℕ)) (poly : List (Term S)) (w : Fin (d.map Prod.snd).prod → F)
    (i : Fin (d.map Prod.snd).prod) : applyPoly C d poly w i = ∑ j, shiftSum C 1 d poly i j * w j := by
  unfold applyPoly shiftSum
  induction poly with
  | nil => simp
  | cons t poly ih =>
    simp only [List.map_cons, List.sum_cons, add_mul, Finset.sum_add_distrib]
    rw [ih, Finset.mul_sum]
    simp only [ite_mul, zero_mul, mul_ite, mul_zero]

/-- The functions on the torus that two polynomials annihilate. -/
def annihilated (C : ℤ → F) (d : List (S × ℕ)) (polyA polyB : List (Term S)) :
    Submodule F (Fin (d.map Prod.snd).prod → F) where
  carrier := {w | ∀ i, applyPoly C d polyA w i = 0 ∧ applyPoly C d polyB w i = 0}
  zero_mem' := fun i => by simp [applyPoly_eq]
  add_mem' := fun {v w} hv hw i => by
    have h1 := hv i
    have h2 := hw i
    simp only [applyPoly_eq, Pi.add_apply, mul_add, Finset.sum_add_distrib] at h1 h2 ⊢
    rw [h1.1, h1.2, h2.1, h2.2]
    simp
  smul_mem' := fun c w hw i => by
    have h := hw i
    simp only [applyPoly_eq, Pi.smul_apply, smul_eq_mul, mul_left_comm _ c, ← Finset.mul_sum] at h ⊢
    rw [h.1, h.2]
    simp

/-- The rank of a list of rows and the relations between the rows. -/
theorem rank_add_relations {P : ℕ} (M : Rows F n) (hP : M.length = P) (W : Submodule F (Fin P → F))
    (hW : ∀ w, w ∈ W ↔ ∀ q : Fin n, ∑ i : Fin P, matEntry M i q * w i = 0) :
    rank M + Module.finrank F W = P := by
  subst hP
  let A : Matrix (Fin M.length) (Fin n) F := fun i q => M[i.val] q
  have h1 : rank M = A.rank := by
    rw [Matrix.rank_eq_finrank_span_row, ← finrank_rowSpan]
    have : Set.range A.row = {v | v ∈ M} := by
      ext v
      constructor
      · rintro ⟨i, rfl⟩
        exact List.getElem_mem i.isLt
      · intro hv
        obtain ⟨i, hi, rfl⟩ := List.getElem_of_mem hv
        exact ⟨⟨i, hi⟩, rfl⟩
    rw [this]
    rfl
  have h2 : LinearMap.ker A.transpose.mulVecLin = W := by
    ext w
    rw [hW, LinearMap.mem_ker, Matrix.mulVecLin_apply]
    constructor
    · intro h q
      refine Eq.trans ?_ (congrFun h q)
      exact Finset.sum_congr rfl fun i _ => by rw [matEntry_fin]; rfl
    · intro h
      funext q
      refine Eq.trans (Eq.symm ?_) (h q)
      exact Finset.sum_congr rfl fun i _ => by rw [matEntry_fin]; rfl
  have h3 := LinearMap.finrank_range_add_finrank_ker A.transpose.mulVecLin
  rw [h2, Module.finrank_fin_fun] at h3
  rw [h1, ← Matrix.rank_transpose]
  exact h3

/-- Some point, and only one, is reached by a move. -/
theorem sum_moved (d : List (S × ℕ)) (i : Fin (d.map Prod.snd).prod) (e : List (S × ℤ)) :
    (∑ j : Fin (d.map Prod.snd).prod, if torusCoords (d.map Prod.snd) j =
      movedBy 1 d (torusCoords (d.map Prod.snd) i) e then (1 : F) else 0) = 1 := by
  obtain ⟨j, hj⟩ := exists_index (isExps_movedBy 1 d (isExps_torusCoords i) e)
  rw [Finset.sum_eq_single j]
  · rw [if_pos hj]
  · intro k _ hk
    rw [if_neg]
    intro h
    exact hk (torusCoords_inj (h.trans hj.symm))
  · intro h
    exact absurd (Finset.mem_univ _) h

theorem applyPoly_one (C : ℤ → F) (d : List (S × ℕ)) (poly : List (Term S)) (i : Fin (d.map Prod.snd).prod)
    (h : (poly.map fun t => C t.coeff).sum = 0) : applyPoly C d poly (fun _ => 1) i = 0 := by
  unfold applyPoly
  simp only [sum_moved, mul_one]
  exact h

section

variable {drop : Bool} {coeffOf : ℤ → Option F} {C : ℤ → F} {d : List (S × ℕ)} {polyA polyB : List (Term S)}

/-- **C109**: the number of logical qudits of a quasi-cyclic code is twice the dimension of the space of functions on the torus
that both polynomials annihilate. -/
theorem C109_dimension (hA : QCInput drop coeffOf C d polyA) (hB : QCInput drop coeffOf C d polyB) :
    ∃ mx mz, qcMatrices drop coeffOf d polyA polyB = some (mx, mz) ∧
      (qcObject (mx, mz)).dimension = 2 * Module.finrank F (annihilated C d polyA polyB) := by
  obtain ⟨mx, mz, hm, hlx, hlz, -, hent⟩ := C51_code hA hB
  refine ⟨mx, mz, hm, ?_⟩
  obtain ⟨h1, -, h2⟩ := C106_dimension hA hB hm
  have key : rank mz + Module.finrank F (annihilated C d polyA polyB) = (d.map Prod.snd).prod := by
    refine rank_add_relations mz hlz _ fun w => ?_
    have eb : ∀ i j, matEntry mz (i : Fin (d.map Prod.snd).prod) (Fin.castAdd (d.map Prod.snd).prod j).val =
        shiftSum C 1 d polyB j i := fun i j => (hent i j).2.2.1.trans (moved_swap d polyB C i j).symm
    have ea : ∀ i j, matEntry mz (i : Fin (d.map Prod.snd).prod) (Fin.natAdd (d.map Prod.snd).prod j).val =
        - shiftSum C 1 d polyA j i := fun i j =>
          (hent i j).2.2.2.trans (congrArg Neg.neg (moved_swap d polyA C i j).symm)
    have sb : ∀ j, ∑ i : Fin (d.map Prod.snd).prod, matEntry mz i (Fin.castAdd (d.map Prod.snd).prod j).val * w i = applyPoly C d polyB w j :=
      fun j => by rw [applyPoly_eq]; exact Finset.sum_congr rfl fun i _ => by rw [eb]
    have sa : ∀ j, ∑ i : Fin (d.map Prod.snd).prod, matEntry mz i (Fin.natAdd (d.map Prod.snd).prod j).val * w i = - applyPoly C d polyA w j :=
      fun j => by
        rw [applyPoly_eq, ← Finset.sum_neg_distrib]
        exact Finset.sum_congr rfl fun i _ => by rw [ea, neg_mul]
    constructor
    · intro hw q
      induction q using Fin.addCases with
      | left j => rw [sb]; exact (hw j).2
      | right j => rw [sa, (hw j).1, neg_zero]
    · intro hw j
      exact ⟨neg_eq_zero.1 ((sa j).symm.trans (hw _)), (sb j).symm.trans (hw _)⟩
  rw [h1, h2]
  omega

/-- **C109**: there is no logical qudit if and only if no function but zero is annihilated by both polynomials. -/
theorem C109_trivial (hA : QCInput drop coeffOf C d polyA) (hB : QCInput drop coeffOf C d polyB) :
    ∃ mx mz, qcMatrices drop coeffOf d polyA polyB = some (mx, mz) ∧
      ((qcObject (mx, mz)).dimension = 0 ↔
        ∀ w, (∀ i, applyPoly C d polyA w i = 0 ∧ applyPoly C d polyB w i = 0) → w = 0) := by
  obtain ⟨mx, mz, hm, hk⟩ := C109_dimension hA hB
  refine ⟨mx, mz, hm, ?_⟩
  rw [hk, Nat.mul_eq_zero, or_iff_right (by decide), Submodule.finrank_eq_zero, Submodule.eq_bot_iff]
  rfl

/-- **C109**: if the coefficients of each polynomial sum to zero, there are at least two logical qudits, because constant
functions are annihilated. -/
theorem C109_even (hA : QCInput drop coeffOf C d polyA) (hB : QCInput drop coeffOf C d polyB)
    (hsA : (polyA.map fun t => C t.coeff).sum = 0) (hsB : (polyB.map fun t => C t.coeff).sum = 0) :
    ∃ mx mz, qcMatrices drop coeffOf d polyA polyB = some (mx, mz) ∧ 2 ≤ (qcObject (mx, mz)).dimension := by
  obtain ⟨mx, mz, hm, hk⟩ := C109_trivial hA hB
  obtain ⟨mx', mz', hm', hd⟩ := C109_dimension hA hB
  rw [hm] at hm'
  obtain ⟨rfl, rfl⟩ := Prod.mk.inj (Option.some.inj hm')
  refine ⟨mx, mz, hm, ?_⟩
  have hne : (qcObject (mx, mz)).dimension ≠ 0 := by
    intro h0
    have hpos : 0 < (d.map Prod.snd).prod := List.prod_pos hA.good.pos
    have h1 := hk.1 h0 (fun _ => 1) fun i => ⟨applyPoly_one C d polyA i hsA, applyPoly_one C d polyB i hsB⟩
    exact one_ne_zero (congrFun h1 ⟨0, hpos⟩)
  omega

end

/-- The code with 72 qubits of the tests meets the hypotheses. -/
example : ∃ mx mz, qcMatrices true coeffTwo [((0 : ℕ), 6), (1, 6)]
      [⟨1, [(0, 3)]⟩, ⟨1, [(1, 1)]⟩, ⟨1, [(1, 2)]⟩] [⟨1, [(1, 3)]⟩, ⟨1, [(0, 1)]⟩, ⟨1, [(0, 2)]⟩] = some (mx, mz) ∧
    (qcObject (mx, mz)).dimension = 2 * Module.finrank (ZMod 2) (annihilated (fun c => (c : ZMod 2)) [((0 : ℕ), 6), (1, 6)]
      [⟨1, [(0, 3)]⟩, ⟨1, [(1, 1)]⟩, ⟨1, [(1, 2)]⟩] [⟨1, [(1, 3)]⟩, ⟨1, [(0, 1)]⟩, ⟨1, [(0, 2)]⟩]) :=
  C109_dimension qcInput_72.1 qcInput_72.2

/-- Toric codes, with the polynomials `1 + x` and `1 + y`, meet the hypotheses of `C109_even`. -/
theorem qcInput_toric : QCInput true coeffTwo (fun c => (c : ZMod 2)) [((0 : ℕ), 3), (1, 4)] [⟨1, []⟩, ⟨1, [(0, 1)]⟩] ∧
    QCInput true coeffTwo (fun c => (c : ZMod 2)) [((0 : ℕ), 3), (1, 4)] [⟨1, []⟩, ⟨1, [(1, 1)]⟩] :=
  ⟨⟨Or.inl (by decide +kernel), by decide +kernel, by decide +kernel, by decide +kernel⟩,
    ⟨Or.inl (by decide +kernel), by decide +kernel, by decide +kernel, by decide +kernel⟩⟩

example : ∃ mx mz, qcMatrices true coeffTwo [((0 : ℕ), 3), (1, 4)] [⟨1, []⟩, ⟨1, [(0, 1)]⟩] [⟨1, []⟩, ⟨1, [(1, 1)]⟩] =
    some (mx, mz) ∧ 2 ≤ (qcObject (mx, mz)).dimension :=
  C109_even qcInput_toric.1 qcInput_toric.2 (by decide) (by decide)

#print axioms C109_dimension
#print axioms C109_trivial
#print axioms C109_even

/-! ### Instances of the theorems: concrete cases meet the hypotheses -/

example := C109_trivial qcInput_72.1 qcInput_72.2

end QLDPC.Props
