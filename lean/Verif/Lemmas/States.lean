import Verif.Spec.States
import Verif.Lemmas.TableauCircuit
import Mathlib.Tactic.LinearCombination

namespace QLDPC

open Spec SPauli Complex

variable {n : ℕ}

theorem sgn_add (a b : ZMod 2) : sgn (a + b) = sgn a * sgn b := by
  have h : ∀ a : ZMod 2, a = 0 ∨ a = 1 := by decide
  have h2 : (1 : ZMod 2) + 1 = 0 := by decide
  have h1 : (1 : ZMod 2) ≠ 0 := by decide
  rcases h a with e | e <;> rcases h b with e' | e' <;> subst e <;> subst e' <;> simp [sgn, h2]

theorem ipow_add (a b : ZMod 4) : ipow (a + b) = ipow a * ipow b := by
  unfold ipow
  rw [← pow_add, ZMod.val_add]
  exact (Complex.I_pow_eq_pow_mod _).symm

theorem ipow_zero : ipow 0 = 1 := by simp [ipow]

theorem ipow_double (a : ZMod 2) : ipow (double a) = sgn a := by
  unfold double sgn ipow
  split
  · simp
  · have : (2 : ZMod 4).val = 2 := rfl
    rw [this, I_sq]

theorem act_mul (p q : SPauli n) (ψ : State n) : (p * q).act ψ = p.act (q.act ψ) := by
  funext b
  simp only [SPauli.act, mul_phase, mul_op, ipow_add, ipow_double]
  have e1 : xPart (p.op + q.op) = xPart p.op + xPart q.op := rfl
  have e2 : b + (xPart p.op + xPart q.op) = b + xPart p.op + xPart q.op := (add_assoc _ _ _).symm
  have e3 : sgn (∑ i, zPart p.op i * xPart q.op i) * sgn (∑ i, zPart (p.op + q.op) i * (b i + xPart (p.op + q.op) i)) =
      sgn (∑ i, zPart p.op i * (b i + xPart p.op i)) * sgn (∑ i, zPart q.op i * ((b + xPart p.op) i + xPart q.op i)) := by
    rw [← sgn_add, ← sgn_add, ← Finset.sum_add_distrib, ← Finset.sum_add_distrib]
    congr 1
    refine Finset.sum_congr rfl fun i _ => ?_
    rw [SPauli.xPart_add, SPauli.zPart_add, Pi.add_apply]
    have : (2 : ZMod 2) = 0 := by decide
    linear_combination (zPart p.op i * xPart q.op i) * this
  rw [e1, e2]
  rw [e1] at e3
  linear_combination (ipow p.phase * ipow q.phase * ψ (b + xPart p.op + xPart q.op)) * e3

theorem act_one (ψ : State n) : (1 : SPauli n).act ψ = ψ := by
  funext b
  have hx : xPart (0 : Fin (n + n) → ZMod 2) = 0 := rfl
  have hz : zPart (0 : Fin (n + n) → ZMod 2) = 0 := rfl
  simp [SPauli.act, one_op, one_phase, ipow_zero, hx, hz, sgn]

theorem act_scalar (a : ZMod 4) (ψ : State n) : (SPauli.scalar a : SPauli n).act ψ = fun b => ipow a * ψ b := by
  funext b
  have hx : xPart (0 : Fin (n + n) → ZMod 2) = 0 := rfl
  have hz : zPart (0 : Fin (n + n) → ZMod 2) = 0 := rfl
  simp [SPauli.act, SPauli.scalar, hx, hz, sgn]

/-- Operators on states that commute with scalars `i^a`, and that conjugate Pauli operators as `f` says. -/
def Intertwines (U : State n → State n) (f : SPauli n → SPauli n) : Prop := ∀ p ψ, U (p.act ψ) = (f p).act (U ψ)

theorem intertwines_of {U : State n → State n} {f : SPauli n → SPauli n} (hf : IsHom f)
    (hs : ∀ a ψ, U (fun b => ipow a * ψ b) = fun b => ipow a * U ψ b)
    (hx : ∀ j ψ, U ((SPauli.X j).act ψ) = (f (SPauli.X j)).act (U ψ))
    (hz : ∀ j ψ, U ((SPauli.Z j).act ψ) = (f (SPauli.Z j)).act (U ψ)) : Intertwines U f := by
  let G : SPauli n → Prop := fun p => ∀ ψ, U (p.act ψ) = (f p).act (U ψ)
  have h1 : G 1 := fun ψ => by rw [hf.one, act_one, act_one]
  have hm : ∀ p q, G p → G q → G (p * q) := fun p q hp hq ψ => by rw [act_mul, hp, hq, hf.mul, act_mul]
  have hl : ∀ l : List (SPauli n), (∀ p ∈ l, G p) → G l.prod := by
    intro l
    induction l with
    | nil => intro _; exact h1
    | cons p l ih =>
      intro h
      rw [List.prod_cons]
      exact hm _ _ (h p List.mem_cons_self) (ih fun q hq => h q (List.mem_cons_of_mem _ hq))
  have hb : ∀ p b, G p → G (Tableau.bitPow p b) := by
    intro p b hp
    unfold Tableau.bitPow
    split
    · exact h1
    · exact hp
  have hpow : ∀ (a : Fin n → SPauli n) (b : Fin n → ZMod 2), (∀ j, G (a j)) → G (powProd a b) := by
    intro a b ha
    refine hl _ fun p hp => ?_
    rw [List.mem_ofFn] at hp
    obtain ⟨j, rfl⟩ := hp
    exact hb _ _ (ha j)
  intro p
  have hp : G p := by
    rw [factor p]
    refine hm _ _ (fun ψ => ?_) (hm _ _ (hpow _ _ hx) (hpow _ _ hz))
    rw [act_scalar, hs, hf.scalar, act_scalar]
  exact hp

theorem Intertwines.comp {U V : State n → State n} {f g : SPauli n → SPauli n} (hU : Intertwines U f)
    (hV : Intertwines V g) : Intertwines (V ∘ U) (g ∘ f) := fun p ψ => by
  simp only [Function.comp]
  rw [hU, hV]

/-! ## Gates on one qubit -/

theorem sum_zmod2 (f : ZMod 2 → ℂ) : ∑ c, f c = f 0 + f 1 := Fin.sum_univ_two f

theorem onQubit_apply (q : Fin n) (U : ZMod 2 → ZMod 2 → ℂ) (ψ : State n) (b : Fin n → ZMod 2) :
    onQubit q U ψ b = U (b q) 0 * ψ (Function.update b q 0) + U (b q) 1 * ψ (Function.update b q 1) := sum_zmod2 _

/-- Product of matrices of size two. -/
noncomputable def mulMat (U V : ZMod 2 → ZMod 2 → ℂ) : ZMod 2 → ZMod 2 → ℂ := fun i j => U i 0 * V 0 j + U i 1 * V 1 j

theorem onQubit_mul (q : Fin n) (U V : ZMod 2 → ZMod 2 → ℂ) (ψ : State n) :
    onQubit q U (onQubit q V ψ) = onQubit q (mulMat U V) ψ := by
  funext b
  simp only [onQubit_apply, mulMat, Function.update_self, Function.update_idem]
  ring

/-- The matrix of `i^a X^x Z^z`. -/
noncomputable def pauliMat (a : ZMod 4) (x z : ZMod 2) : ZMod 2 → ZMod 2 → ℂ :=
  fun i j => if i = j + x then ipow a * sgn (z * j) else 0

theorem act_oneQubit (q : Fin n) (a : ZMod 4) (x z : ZMod 2) (ψ : State n) :
    (⟨a, oneQubit q x z⟩ : SPauli n).act ψ = onQubit q (pauliMat a x z) ψ := by
  funext b
  simp only [SPauli.act, onQubit_apply, xPart_oneQubit, zPart_oneQubit]
  have e1 : ∑ i, (Pi.single q z : Fin n → ZMod 2) i * (b i + (Pi.single q x : Fin n → ZMod 2) i) = z * (b q + x) := by
    rw [Finset.sum_eq_single q]
    · simp
    · intro i _ hi; simp [Pi.single_eq_of_ne hi]
    · simp
  have e2 : b + Pi.single q x = Function.update b q (b q + x) := by
    funext i
    by_cases h : i = q
    · subst h; simp
    · simp [h]
  rw [e1, e2]
  generalize b q = c
  have key : ∀ c x : ZMod 2, (c + x = 0 ∧ c = 0 + x ∧ c ≠ 1 + x) ∨ (c + x = 1 ∧ c ≠ 0 + x ∧ c = 1 + x) := by decide
  unfold pauliMat
  rcases key c x with ⟨h1, h2, h3⟩ | ⟨h1, h2, h3⟩
  · rw [h1, if_pos h2, if_neg h3]; ring
  · rw [h1, if_neg h2, if_pos h3]; ring

theorem onQubit_smul (q : Fin n) (U : ZMod 2 → ZMod 2 → ℂ) (a : ℂ) (ψ : State n) :
    onQubit q U (fun b => a * ψ b) = fun b => a * onQubit q U ψ b := by
  funext b
  simp only [onQubit_apply]
  ring

/-- Operators on other qubits commute with a gate. -/
theorem onQubit_comm (q j : Fin n) (h : j ≠ q) (U V : ZMod 2 → ZMod 2 → ℂ) (ψ : State n) :
    onQubit q U (onQubit j V ψ) = onQubit j V (onQubit q U ψ) := by
  funext b
  simp only [onQubit_apply, Function.update_of_ne h, Function.update_of_ne h.symm]
  rw [Function.update_comm h, Function.update_comm h, Function.update_comm h, Function.update_comm h]
  ring

/-- The phase of a signed string on one qubit. -/
def imagePhase (im : Bool × ZMod 2 × ZMod 2) : ZMod 4 :=
  (if im.1 then 2 else 0) + if im.2.1 ≠ 0 ∧ im.2.2 ≠ 0 then 1 else 0

theorem signed_oneQubit (q : Fin n) (im : Bool × ZMod 2 × ZMod 2) :
    SPauli.signed im.1 (oneQubit q im.2.1 im.2.2) = ⟨imagePhase im, oneQubit q im.2.1 im.2.2⟩ := by
  unfold SPauli.signed
  rw [scalar_mul]
  congr 1
  unfold imagePhase
  congr 1
  change ((countY (oneQubit q im.2.1 im.2.2) : ℕ) : ZMod 4) = _
  unfold countY
  rw [xPart_oneQubit, zPart_oneQubit]
  by_cases h : im.2.1 ≠ 0 ∧ im.2.2 ≠ 0
  · rw [if_pos h]
    have : (Finset.univ.filter fun i => (Pi.single q im.2.1 : Fin n → ZMod 2) i ≠ 0 ∧ (Pi.single q im.2.2 : Fin n → ZMod 2) i ≠ 0) = {q} := by
      ext i
      by_cases hi : i = q
      · subst hi; simp [h.1, h.2]
      · simp [hi]
    rw [this]
    rfl
  · rw [if_neg h]
    have : (Finset.univ.filter fun i => (Pi.single q im.2.1 : Fin n → ZMod 2) i ≠ 0 ∧ (Pi.single q im.2.2 : Fin n → ZMod 2) i ≠ 0) = ∅ := by
      ext i
      by_cases hi : i = q
      · subst hi
        simp only [Pi.single_eq_same, Finset.mem_filter, Finset.mem_univ, true_and, Finset.notMem_empty, iff_false]
        exact h
      · simp [hi]
    rw [this]
    rfl

theorem localTableau_intertwines (q : Fin n) (im : (Bool × ZMod 2 × ZMod 2) × (Bool × ZMod 2 × ZMod 2))
    (hv : (localTableau n q im).Valid) (U : ZMod 2 → ZMod 2 → ℂ)
    (hx : mulMat U (pauliMat 0 1 0) = mulMat (pauliMat (imagePhase im.1) im.1.2.1 im.1.2.2) U)
    (hz : mulMat U (pauliMat 0 0 1) = mulMat (pauliMat (imagePhase im.2) im.2.2.1 im.2.2.2) U) :
    Intertwines (onQubit q U) (localTableau n q im).apply := by
  refine intertwines_of hv.isHom (fun a ψ => onQubit_smul _ _ _ _) (fun j ψ => ?_) fun j ψ => ?_
  · rw [Tableau.apply_X]
    have e : (SPauli.X j : SPauli n) = ⟨0, oneQubit j 1 0⟩ := by rw [X_eq]; exact signed_oneQubit j (false, 1, 0)
    change _ = SPauli.act (if j.val = q.val then _ else SPauli.X j) _
    split
    · rename_i h
      have h : j = q := Fin.ext h
      subst h
      rw [signed_oneQubit, e, act_oneQubit, act_oneQubit, onQubit_mul, onQubit_mul, hx]
    · rename_i h
      rw [e, act_oneQubit, act_oneQubit, onQubit_comm _ _ (fun e => h (by rw [e]))]
  · rw [Tableau.apply_Z]
    have e : (SPauli.Z j : SPauli n) = ⟨0, oneQubit j 0 1⟩ := by rw [Z_eq]; exact signed_oneQubit j (false, 0, 1)
    change _ = SPauli.act (if j.val = q.val then _ else SPauli.Z j) _
    split
    · rename_i h
      have h : j = q := Fin.ext h
      subst h
      rw [signed_oneQubit, e, act_oneQubit, act_oneQubit, onQubit_mul, onQubit_mul, hz]
    · rename_i h
      rw [e, act_oneQubit, act_oneQubit, onQubit_comm _ _ (fun e => h (by rw [e]))]

theorem mat_ext {U V : ZMod 2 → ZMod 2 → ℂ} (h00 : U 0 0 = V 0 0) (h01 : U 0 1 = V 0 1) (h10 : U 1 0 = V 1 0)
    (h11 : U 1 1 = V 1 1) : U = V := by
  have h : ∀ a : ZMod 2, a = 0 ∨ a = 1 := by decide
  funext i j
  rcases h i with e | e <;> rcases h j with e' | e' <;> subst e <;> subst e' <;> assumption

theorem ipow_one : ipow 1 = I := by
  have : (1 : ZMod 4).val = 1 := rfl
  rw [ipow, this, pow_one]

theorem ipow_two : ipow 2 = -1 := by
  have : (2 : ZMod 4).val = 2 := rfl
  rw [ipow, this, I_sq]

theorem ipow_three : ipow 3 = -I := by
  have : (3 : ZMod 4).val = 3 := rfl
  rw [ipow, this, pow_succ, I_sq, neg_one_mul]

theorem pauliMat_eq : ∀ a : ZMod 4, pauliMat a 1 0 = mat2 0 (ipow a) (ipow a) 0 ∧
    pauliMat a 0 1 = mat2 (ipow a) 0 0 (- ipow a) ∧ pauliMat a 1 1 = mat2 0 (- ipow a) (ipow a) 0 := by
  intro a
  have h10 : (1 : ZMod 2) ≠ 0 := by decide
  have h01 : (0 : ZMod 2) ≠ 1 := by decide
  have h2 : (1 : ZMod 2) + 1 = 0 := by decide
  refine ⟨?_, ?_, ?_⟩ <;> apply mat_ext <;> simp [pauliMat, mat2, sgn, h2]

theorem mulMat_mat2 (a b c d a' b' c' d' : ℂ) : mulMat (mat2 a b c d) (mat2 a' b' c' d') =
    mat2 (a * a' + b * c') (a * b' + b * d') (c * a' + d * c') (c * b' + d * d') := by
  apply mat_ext <;> simp [mulMat, mat2]

theorem mat2_congr {a b c d a' b' c' d' : ℂ} (h1 : a = a') (h2 : b = b') (h3 : c = c') (h4 : d = d') :
    mat2 a b c d = mat2 a' b' c' d' := by subst h1 h2 h3 h4; rfl

theorem act_X (j : Fin n) (ψ : State n) (b : Fin n → ZMod 2) : (SPauli.X j : SPauli n).act ψ b = ψ (b + Pi.single j 1) := by
  have hx : xPart (SPauli.X j : SPauli n).op = Pi.single j 1 := by rw [X_op, xPart_append]
  have hz : zPart (SPauli.X j : SPauli n).op = 0 := by rw [X_op, zPart_append]
  simp [SPauli.act, hx, hz, X_phase, ipow_zero, sgn]

theorem act_Z (j : Fin n) (ψ : State n) (b : Fin n → ZMod 2) : (SPauli.Z j : SPauli n).act ψ b = sgn (b j) * ψ b := by
  have hx : xPart (SPauli.Z j : SPauli n).op = 0 := by rw [Z_op, xPart_append]
  have hz : zPart (SPauli.Z j : SPauli n).op = Pi.single j 1 := by rw [Z_op, zPart_append]
  have e : ∑ i, (Pi.single j 1 : Fin n → ZMod 2) i * b i = b j := by
    rw [Finset.sum_eq_single j]
    · simp
    · intro i _ hi; simp [Pi.single_eq_of_ne hi]
    · simp
  simp only [SPauli.act, hx, hz, Z_phase, ipow_zero, Pi.zero_apply, add_zero, one_mul, e]

theorem swap_intertwines (a b : ℕ) :
    Intertwines (Instr.unitary (.gate (.SWAP a b)) : State n → State n) (swapTableau n a b).apply := by
  have hU : ∀ (ψ : State n) s, Instr.unitary (.gate (.SWAP a b)) ψ s = ψ (s ∘ exchange n a b) := by
    intro ψ s
    change ψ _ = _
    congr 1
    funext j
    simp only [Function.comp, exchange]
    split_ifs <;> rfl
  refine intertwines_of (swapTableau_valid a b).isHom (fun _ _ => rfl) (fun j ψ => ?_) fun j ψ => ?_
  · rw [Tableau.apply_X]
    change _ = (SPauli.X (exchange n a b j)).act _
    funext s
    rw [hU, act_X, act_X, hU]
    congr 1
    funext i
    simp only [Pi.add_apply, Function.comp]
    congr 1
    by_cases h : i = j
    · subst h; simp
    · rw [Pi.single_eq_of_ne h, Pi.single_eq_of_ne]
      intro e
      exact h (by rw [← exchange_exchange a b i, e, exchange_exchange])
  · rw [Tableau.apply_Z]
    change _ = (SPauli.Z (exchange n a b j)).act _
    funext s
    rw [hU, act_Z, act_Z, hU]
    rfl

theorem localTableau_out {q : ℕ} (h : ¬ q < n) (im : (Bool × ZMod 2 × ZMod 2) × (Bool × ZMod 2 × ZMod 2)) (p : SPauli n) :
    (localTableau n q im).apply p = p := by
  refine isHom_id.eq_apply (fun j => ?_) (fun j => ?_) p
  · exact if_neg (by have := j.isLt; omega)
  · exact if_neg (by have := j.isLt; omega)

theorem sqrt_two_sq : ((√2 : ℝ) : ℂ) * ((√2 : ℝ) : ℂ) = 2 := by
  rw [← Complex.ofReal_mul, Real.mul_self_sqrt (by norm_num)]; norm_num

theorem instr_matrix (g : Instr) (im : (Bool × ZMod 2 × ZMod 2) × (Bool × ZMod 2 × ZMod 2))
    (hg : (∃ q, g = .X q ∧ im = ((false, 1, 0), (true, 0, 1))) ∨ (∃ q, g = .Y q ∧ im = ((true, 1, 0), (true, 0, 1))) ∨
      (∃ q, g = .Z q ∧ im = ((true, 1, 0), (false, 0, 1))) ∨ ∃ g', g = .gate g' ∧ im = g'.images ∧ ∀ a b, g' ≠ .SWAP a b) :
    mulMat (gateMatrix g) (pauliMat 0 1 0) = mulMat (pauliMat (imagePhase im.1) im.1.2.1 im.1.2.2) (gateMatrix g) ∧
    mulMat (gateMatrix g) (pauliMat 0 0 1) = mulMat (pauliMat (imagePhase im.2) im.2.2.1 im.2.2.2) (gateMatrix g) := by
  have i1 : imagePhase (false, 1, 0) = 0 := by decide
  have i2 : imagePhase (true, 1, 0) = 2 := by decide
  have i3 : imagePhase (false, 0, 1) = 0 := by decide
  have i4 : imagePhase (true, 0, 1) = 2 := by decide
  have i5 : imagePhase (false, 1, 1) = 1 := by decide
  have i6 : imagePhase (true, 1, 1) = 3 := by decide
  have hI : I * I = -1 := I_mul_I
  rcases hg with ⟨q, rfl, rfl⟩ | ⟨q, rfl, rfl⟩ | ⟨q, rfl, rfl⟩ | ⟨g', rfl, rfl, hg'⟩
  · constructor <;> simp only [i1, i2, i3, i4, i5, i6, (pauliMat_eq _).1, (pauliMat_eq _).2.1, (pauliMat_eq _).2.2, gateMatrix, mulMat_mat2, ipow_zero, ipow_one, ipow_two, ipow_three] <;> apply mat2_congr <;> ring
  · constructor <;> simp only [i1, i2, i3, i4, i5, i6, (pauliMat_eq _).1, (pauliMat_eq _).2.1, (pauliMat_eq _).2.2, gateMatrix, mulMat_mat2, ipow_zero, ipow_one, ipow_two, ipow_three] <;> apply mat2_congr <;> ring
  · constructor <;> simp only [i1, i2, i3, i4, i5, i6, (pauliMat_eq _).1, (pauliMat_eq _).2.1, (pauliMat_eq _).2.2, gateMatrix, mulMat_mat2, ipow_zero, ipow_one, ipow_two, ipow_three] <;> apply mat2_congr <;> ring
  · cases g' with
    | SWAP a b => exact absurd rfl (hg' a b)
    | _ =>
      constructor <;> simp only [Gate.images, i1, i2, i3, i4, i5, i6, (pauliMat_eq _).1, (pauliMat_eq _).2.1, (pauliMat_eq _).2.2, gateMatrix, mulMat_mat2, ipow_zero, ipow_one, ipow_two, ipow_three] <;> apply mat2_congr <;> (try ring_nf) <;> (try simp only [I_sq]) <;> (try ring)

theorem instr_intertwines (g : Instr) : Intertwines (Instr.unitary g : State n → State n) (g.tableau n).apply := by
  have key : ∀ (q : ℕ) (im : (Bool × ZMod 2 × ZMod 2) × (Bool × ZMod 2 × ZMod 2)),
      (∀ ψ : State n, Instr.unitary g ψ = if h : q < n then onQubit ⟨q, h⟩ (gateMatrix g) ψ else ψ) →
      g.tableau n = localTableau n q im → (mulMat (gateMatrix g) (pauliMat 0 1 0) = mulMat (pauliMat (imagePhase im.1) im.1.2.1 im.1.2.2) (gateMatrix g) ∧
    mulMat (gateMatrix g) (pauliMat 0 0 1) = mulMat (pauliMat (imagePhase im.2) im.2.2.1 im.2.2.2) (gateMatrix g)) →
      Intertwines (Instr.unitary g : State n → State n) (g.tableau n).apply := by
    intro q im hU hT hm
    have hv : (localTableau n q im).Valid := hT ▸ Instr.valid g
    rw [hT]
    intro p ψ
    rw [hU, hU]
    by_cases h : q < n
    · rw [dif_pos h, dif_pos h]
      exact localTableau_intertwines ⟨q, h⟩ im hv _ hm.1 hm.2 p ψ
    · rw [dif_neg h, dif_neg h, localTableau_out h]
  cases g with
  | X q => exact key q _ (fun _ => rfl) rfl (instr_matrix _ _ (Or.inl ⟨q, rfl, rfl⟩))
  | Y q => exact key q _ (fun _ => rfl) rfl (instr_matrix _ _ (Or.inr (Or.inl ⟨q, rfl, rfl⟩)))
  | Z q => exact key q _ (fun _ => rfl) rfl (instr_matrix _ _ (Or.inr (Or.inr (Or.inl ⟨q, rfl, rfl⟩))))
  | gate g' =>
    cases g' with
    | SWAP a b => exact swap_intertwines a b
    | H q => exact key q _ (fun _ => rfl) rfl (instr_matrix _ _ (Or.inr (Or.inr (Or.inr ⟨_, rfl, rfl, by simp⟩))))
    | S q => exact key q _ (fun _ => rfl) rfl (instr_matrix _ _ (Or.inr (Or.inr (Or.inr ⟨_, rfl, rfl, by simp⟩))))
    | SQRT_X q => exact key q _ (fun _ => rfl) rfl (instr_matrix _ _ (Or.inr (Or.inr (Or.inr ⟨_, rfl, rfl, by simp⟩))))
    | H_YZ q => exact key q _ (fun _ => rfl) rfl (instr_matrix _ _ (Or.inr (Or.inr (Or.inr ⟨_, rfl, rfl, by simp⟩))))
    | C_ZYX q => exact key q _ (fun _ => rfl) rfl (instr_matrix _ _ (Or.inr (Or.inr (Or.inr ⟨_, rfl, rfl, by simp⟩))))
    | C_XYZ q => exact key q _ (fun _ => rfl) rfl (instr_matrix _ _ (Or.inr (Or.inr (Or.inr ⟨_, rfl, rfl, by simp⟩))))

theorem circuitUnitary_append (c d : List Instr) (ψ : State n) :
    circuitUnitary (c ++ d) ψ = circuitUnitary d (circuitUnitary c ψ) := by
  unfold circuitUnitary
  rw [List.foldl_append]

theorem circuit_intertwines (c : List Instr) : Intertwines (circuitUnitary c : State n → State n) (circuitTableau n c).apply := by
  induction c using List.reverseRecOn with
  | nil =>
    intro p ψ
    rw [circuitTableau_nil, Tableau.apply_identity]
    rfl
  | append_singleton c g ih =>
    intro p ψ
    rw [circuitUnitary_append, circuitUnitary_append, ih, circuitTableau_concat,
      Tableau.apply_andThen (circuitTableau_valid c) (Instr.valid g)]
    exact instr_intertwines g _ _

/-! ## Unitarity -/

theorem onQubit_linear (q : Fin n) (U : ZMod 2 → ZMod 2 → ℂ) (a b : ℂ) (ψ φ : State n) :
    onQubit q U (a • ψ + b • φ) = a • onQubit q U ψ + b • onQubit q U φ := by
  funext s
  simp only [onQubit_apply, Pi.add_apply, Pi.smul_apply, smul_eq_mul]
  ring

theorem instr_linear (g : Instr) (a b : ℂ) (ψ φ : State n) :
    Instr.unitary g (a • ψ + b • φ) = a • Instr.unitary g ψ + b • Instr.unitary g φ := by
  have key : ∀ q : ℕ, (∀ ψ : State n, Instr.unitary g ψ = if h : q < n then onQubit ⟨q, h⟩ (gateMatrix g) ψ else ψ) →
      Instr.unitary g (a • ψ + b • φ) = a • Instr.unitary g ψ + b • Instr.unitary g φ := by
    intro q hU
    rw [hU, hU, hU]
    split
    · exact onQubit_linear _ _ _ _ _ _
    · rfl
  cases g with
  | X q => exact key q fun _ => rfl
  | Y q => exact key q fun _ => rfl
  | Z q => exact key q fun _ => rfl
  | gate g' =>
    cases g' with
    | SWAP a b => rfl
    | H q => exact key q fun _ => rfl
    | S q => exact key q fun _ => rfl
    | SQRT_X q => exact key q fun _ => rfl
    | H_YZ q => exact key q fun _ => rfl
    | C_ZYX q => exact key q fun _ => rfl
    | C_XYZ q => exact key q fun _ => rfl

theorem circuit_linear (c : List Instr) (a b : ℂ) (ψ φ : State n) :
    circuitUnitary c (a • ψ + b • φ) = a • circuitUnitary c ψ + b • circuitUnitary c φ := by
  induction c using List.reverseRecOn with
  | nil => rfl
  | append_singleton c g ih =>
    rw [circuitUnitary_append, circuitUnitary_append, circuitUnitary_append, ih]
    exact instr_linear g a b _ _

/-- Matrices with orthonormal columns. -/
def IsUnitary2 (U : ZMod 2 → ZMod 2 → ℂ) : Prop := ∀ x y : ℂ,
  Complex.normSq (U 0 0 * x + U 0 1 * y) + Complex.normSq (U 1 0 * x + U 1 1 * y) = Complex.normSq x + Complex.normSq y

theorem normSq_onQubit (q : Fin n) {U : ZMod 2 → ZMod 2 → ℂ} (hU : IsUnitary2 U) (ψ : State n) :
    stateNorm (onQubit q U ψ) = stateNorm ψ := by
  unfold stateNorm
  have key : ∀ f : (Fin n → ZMod 2) → ℝ, ∑ b, f b = ∑ r : {j // j ≠ q} → ZMod 2, ∑ c : ZMod 2, f ((Equiv.funSplitAt q (ZMod 2)).symm (c, r)) := by
    intro f
    rw [← Equiv.sum_comp (Equiv.funSplitAt q (ZMod 2)).symm f, Fintype.sum_prod_type_right]
  rw [key, key]
  refine Finset.sum_congr rfl fun r _ => ?_
  have e1 : ∀ c, ((Equiv.funSplitAt q (ZMod 2)).symm (c, r)) q = c := fun c => by simp [Equiv.funSplitAt, Equiv.piSplitAt]
  have e2 : ∀ c c', Function.update ((Equiv.funSplitAt q (ZMod 2)).symm (c, r)) q c' = (Equiv.funSplitAt q (ZMod 2)).symm (c', r) := by
    intro c c'
    funext i
    by_cases h : i = q
    · subst h; simp [Equiv.funSplitAt, Equiv.piSplitAt]
    · rw [Function.update_of_ne h]; simp [Equiv.funSplitAt, Equiv.piSplitAt, h]
  have hs : ∀ f : ZMod 2 → ℝ, ∑ c, f c = f 0 + f 1 := fun f => Fin.sum_univ_two f
  simp only [hs, onQubit_apply, e1, e2]
  exact hU _ _

theorem gateMatrix_unitary (g : Instr) : IsUnitary2 (gateMatrix g) := by
  intro x y
  have h10 : (1 : ZMod 2) ≠ 0 := by decide
  have hs : √2 * √2 = 2 := Real.mul_self_sqrt (by norm_num)
  have hs' : (1 / √2) * (1 / √2) = 1 / 2 := by rw [div_mul_div_comm, hs, one_mul]
  have hr : ∀ a : ℂ, a / ((√2 : ℝ) : ℂ) = ((1 / √2 : ℝ) : ℂ) * a := fun a => by push_cast; ring
  have hh : ∀ a : ℂ, a / 2 = ((1 / 2 : ℝ) : ℂ) * a := fun a => by push_cast; ring
  generalize 1 / √2 = r at hs' hr
  rcases g with q | q | q | g
  · simp [gateMatrix, mat2, Complex.normSq_apply]; ring
  · simp [gateMatrix, mat2, Complex.normSq_apply]; ring
  · simp [gateMatrix, mat2, Complex.normSq_apply]
  · cases g with
    | H q =>
      simp only [gateMatrix, mat2, hr, Complex.normSq_apply, if_true, if_neg h10, Complex.add_re, Complex.add_im,
        Complex.mul_re, Complex.mul_im, Complex.ofReal_re, Complex.ofReal_im, Complex.I_re, Complex.I_im, Complex.neg_re,
        Complex.neg_im, Complex.one_re, Complex.one_im]
      linear_combination (2 * (x.re ^ 2 + x.im ^ 2 + y.re ^ 2 + y.im ^ 2)) * hs'
    | S q => simp [gateMatrix, mat2, Complex.normSq_apply]; try ring
    | SWAP a b => simp [gateMatrix, mat2, Complex.normSq_apply]
    | H_YZ q =>
      simp only [gateMatrix, mat2, hr, Complex.normSq_apply, if_true, if_neg h10, Complex.add_re, Complex.add_im,
        Complex.mul_re, Complex.mul_im, Complex.ofReal_re, Complex.ofReal_im, Complex.I_re, Complex.I_im, Complex.neg_re,
        Complex.neg_im, Complex.one_re, Complex.one_im]
      linear_combination (2 * (x.re ^ 2 + x.im ^ 2 + y.re ^ 2 + y.im ^ 2)) * hs'
    | _ => simp [gateMatrix, mat2, hh, Complex.normSq_apply]; ring

theorem instr_norm (g : Instr) (ψ : State n) : stateNorm (Instr.unitary g ψ) = stateNorm ψ := by
  have key : ∀ q : ℕ, (∀ ψ : State n, Instr.unitary g ψ = if h : q < n then onQubit ⟨q, h⟩ (gateMatrix g) ψ else ψ) →
      stateNorm (Instr.unitary g ψ) = stateNorm ψ := by
    intro q hU
    rw [hU]
    split
    · exact normSq_onQubit _ (gateMatrix_unitary g) _
    · rfl
  cases g with
  | X q => exact key q fun _ => rfl
  | Y q => exact key q fun _ => rfl
  | Z q => exact key q fun _ => rfl
  | gate g' =>
    cases g' with
    | SWAP a b =>
      have hU : ∀ s, Instr.unitary (.gate (.SWAP a b)) ψ s = ψ (s ∘ exchange n a b) := by
        intro s
        change ψ _ = _
        congr 1
        funext j
        simp only [Function.comp, exchange]
        split_ifs <;> rfl
      unfold stateNorm
      simp only [hU]
      let e : (Fin n → ZMod 2) ≃ (Fin n → ZMod 2) :=
        ⟨fun s => s ∘ exchange n a b, fun s => s ∘ exchange n a b, fun s => by
          funext j; simp only [Function.comp, exchange_exchange], fun s => by
          funext j; simp only [Function.comp, exchange_exchange]⟩
      exact Equiv.sum_comp e fun s => Complex.normSq (ψ s)
    | H q => exact key q fun _ => rfl
    | S q => exact key q fun _ => rfl
    | SQRT_X q => exact key q fun _ => rfl
    | H_YZ q => exact key q fun _ => rfl
    | C_ZYX q => exact key q fun _ => rfl
    | C_XYZ q => exact key q fun _ => rfl

theorem circuit_norm (c : List Instr) (ψ : State n) : stateNorm (circuitUnitary c ψ) = stateNorm ψ := by
  induction c using List.reverseRecOn with
  | nil => rfl
  | append_singleton c g ih =>
    rw [circuitUnitary_append, ← ih]
    exact instr_norm g _

theorem stateNorm_eq_zero {ψ : State n} (h : stateNorm ψ = 0) : ψ = 0 := by
  funext b
  have := (Finset.sum_eq_zero_iff_of_nonneg (s := Finset.univ) (f := fun b => Complex.normSq (ψ b))
    (fun b _ => Complex.normSq_nonneg _)).1 h b (Finset.mem_univ b)
  exact Complex.normSq_eq_zero.1 this

theorem circuit_injective (c : List Instr) : Function.Injective (circuitUnitary c : State n → State n) := by
  intro ψ φ h
  have e : circuitUnitary c ((1 : ℂ) • ψ + (-1 : ℂ) • φ) = 0 := by
    rw [circuit_linear, h, one_smul, neg_one_smul, add_neg_cancel]
  have := circuit_norm c ((1 : ℂ) • ψ + (-1 : ℂ) • φ)
  rw [e] at this
  have h0 : stateNorm (0 : State n) = 0 := by simp [stateNorm]
  rw [h0] at this
  have := stateNorm_eq_zero this.symm
  rw [one_smul, neg_one_smul, ← sub_eq_add_neg, sub_eq_zero] at this
  exact this

/-! ## Codes -/

theorem codeState_group {S : List (Fin (n + n) → ZMod 2)} {ψ : State n} (h : IsCodeState S ψ) {p : SPauli n}
    (hp : InStabilizerGroup S p) : p.act ψ = ψ := by
  induction hp with
  | one => exact act_one ψ
  | mul _ hq ih =>
    obtain ⟨s, hs, rfl⟩ := hq
    rw [act_mul, h s hs, ih]

theorem inGroup_of_mem {S : List (Fin (n + n) → ZMod 2)} {s : Fin (n + n) → ZMod 2} (h : s ∈ S) :
    InStabilizerGroup S (plus s) := by
  have := Generated.mul (Generated.one (G := fun p => ∃ s ∈ S, p = plus s)) ⟨s, h, rfl⟩
  rw [one_mul] at this
  exact this

/-- What a circuit with a logical action does to code states. -/
theorem implements_states {k : ℕ} {S S' LX LZ : List (Fin (n + n) → ZMod 2)} {c : List Instr} {t : SPauli k → SPauli k}
    (h : ImplementsLogical S S' LX LZ (circuitTableau n c).apply t) (hinv : ∀ p : SPauli n, ∃ q, (circuitTableau n c).apply q = p) (ψ : State n) :
    (IsCodeState S' (circuitUnitary c ψ) ↔ IsCodeState S ψ) ∧
      ∀ P, IsCodeState S ψ → circuitUnitary c ((SPauli.logical LX LZ P).act ψ) =
        (SPauli.logical LX LZ (t P)).act (circuitUnitary c ψ) := by
  have h1 : IsCodeState S' (circuitUnitary c ψ) ↔ IsCodeState S ψ := by
    constructor
    · intro hc s hs
      have := codeState_group hc ((h.stab _).2 (inGroup_of_mem hs))
      rw [← circuit_intertwines c] at this
      exact circuit_injective c this
    · intro hc s hs
      obtain ⟨q, hq⟩ := hinv (plus s)
      have h2 := (h.stab q).1 (by rw [hq]; exact inGroup_of_mem hs)
      rw [← hq, ← circuit_intertwines c, codeState_group hc h2]
  refine ⟨h1, fun P hc => ?_⟩
  obtain ⟨s, hs, e⟩ := h.logical P
  rw [circuit_intertwines c, e, act_mul, codeState_group (h1.2 hc) hs]

end QLDPC
