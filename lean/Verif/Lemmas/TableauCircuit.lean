import Verif.Lemmas.TableauHom
import Verif.Lemmas.Circuits

/-! # Tableaus of circuits -/

namespace QLDPC

open Spec SPauli

variable {n : ℕ}

/-! ## Pauli operators -/

/-- Conjugation by a Pauli operator. -/
def conjPauli (v : Fin (n + n) → ZMod 2) (p : SPauli n) : SPauli n := SPauli.scalar (double (sform v p.op)) * p

theorem isHom_conjPauli (v : Fin (n + n) → ZMod 2) : IsHom (conjPauli v) where
  mul p q := by
    unfold conjPauli
    rw [mul_op, sform_add_right, double_add, scalar_add]
    have h : p * SPauli.scalar (double (sform v q.op)) = SPauli.scalar (double (sform v q.op)) * p := mul_scalar _ _
    calc _ = SPauli.scalar (double (sform v p.op)) * (SPauli.scalar (double (sform v q.op)) * p) * q := by simp only [mul_assoc]
      _ = _ := by rw [← h]; simp only [mul_assoc]
  scalar a := by
    unfold conjPauli
    have : sform v (SPauli.scalar a : SPauli n).op = 0 := by
      unfold sform
      exact Finset.sum_eq_zero fun i _ => by simp [SPauli.scalar, xPart, zPart]
    rw [this, double_zero, SPauli.scalar_zero, one_mul]

theorem conjPauli_add (u v : Fin (n + n) → ZMod 2) (p : SPauli n) : conjPauli (u + v) p = conjPauli v (conjPauli u p) := by
  unfold conjPauli
  rw [scalar_mul_op, sform_comm2 (u + v), sform_add_right, double_add, add_comm, scalar_add, mul_assoc, sform_comm2 p.op u,
    sform_comm2 p.op v]

theorem conjPauli_zero (p : SPauli n) : conjPauli 0 p = p := by
  unfold conjPauli
  have : sform (0 : Fin (n + n) → ZMod 2) p.op = 0 := by
    unfold sform
    exact Finset.sum_eq_zero fun i _ => by simp [xPart, zPart]
  rw [this, double_zero, SPauli.scalar_zero, one_mul]

theorem conjPauli_op (v : Fin (n + n) → ZMod 2) (p : SPauli n) : (conjPauli v p).op = p.op := scalar_mul_op _ _

theorem xPart_oneQubit (j : Fin n) (a b : ZMod 2) : xPart (oneQubit j a b) = Pi.single j a := xPart_append _ _
theorem zPart_oneQubit (j : Fin n) (a b : ZMod 2) : zPart (oneQubit j a b) = Pi.single j b := zPart_append _ _

theorem X_eq (j : Fin n) : SPauli.X j = SPauli.signed false (oneQubit j 1 0) := by
  unfold SPauli.signed oneQubit
  rw [if_neg (by simp), SPauli.scalar_zero, one_mul, Pi.single_zero]
  rfl

theorem Z_eq (j : Fin n) : SPauli.Z j = SPauli.signed false (oneQubit j 0 1) := by
  unfold SPauli.signed oneQubit
  rw [if_neg (by simp), SPauli.scalar_zero, one_mul, Pi.single_zero]
  rfl

theorem signed_true (op : Fin (n + n) → ZMod 2) :
    SPauli.signed true op = SPauli.scalar 2 * SPauli.signed false op := by
  unfold SPauli.signed
  rw [if_pos rfl, if_neg (by simp), SPauli.scalar_zero, one_mul]

theorem sform_oneQubit (i j : Fin n) (a b c d : ZMod 2) :
    sform (oneQubit i a b) (oneQubit j c d) = if i = j then a * d + b * c else 0 := by
  rw [sform_two]
  simp only [xPart_oneQubit, zPart_oneQubit]
  rw [Finset.sum_eq_single i, Finset.sum_eq_single i]
  · by_cases h : i = j
    · subst h; simp; ring
    · simp [Pi.single_eq_of_ne h, h]
  · intro k _ hk; simp [Pi.single_eq_of_ne hk]
  · intro h; exact absurd (Finset.mem_univ _) h
  · intro k _ hk; simp [Pi.single_eq_of_ne hk]
  · intro h; exact absurd (Finset.mem_univ _) h

theorem op_X' (j : Fin n) : (SPauli.X j : SPauli n).op = oneQubit j 1 0 := by rw [X_eq, signed_op]
theorem op_Z' (j : Fin n) : (SPauli.Z j : SPauli n).op = oneQubit j 0 1 := by rw [Z_eq, signed_op]

/-- The tableau of a Pauli gate conjugates by the Pauli operator. -/
theorem localTableau_pauli (q : Fin n) (a b : ZMod 2) (sx sz : Bool) (hx : sx = decide (b = 1)) (hz : sz = decide (a = 1)) :
    (∀ j, (localTableau n q ((sx, 1, 0), (sz, 0, 1))).xs j = conjPauli (oneQubit q a b) (SPauli.X j)) ∧
    ∀ j, (localTableau n q ((sx, 1, 0), (sz, 0, 1))).zs j = conjPauli (oneQubit q a b) (SPauli.Z j) := by
  have h2 : ∀ a : ZMod 2, a = 0 ∨ a = 1 := by decide
  have d1 : double 1 = 2 := rfl
  constructor
  · intro j
    unfold localTableau conjPauli
    dsimp only
    rw [op_X', sform_oneQubit]
    by_cases h : j.val = q.val
    · have h' : q = j := Fin.ext h.symm
      rw [if_pos h, if_pos h', mul_zero, zero_add, mul_one]
      rcases h2 b with rfl | rfl
      · rw [hx, double_zero, SPauli.scalar_zero, one_mul, X_eq]; rfl
      · rw [hx, d1, X_eq, ← signed_true]; rfl
    · rw [if_neg h, if_neg (fun e => h (by rw [e])), double_zero, SPauli.scalar_zero, one_mul]
  · intro j
    unfold localTableau conjPauli
    dsimp only
    rw [op_Z', sform_oneQubit]
    by_cases h : j.val = q.val
    · have h' : q = j := Fin.ext h.symm
      rw [if_pos h, if_pos h', mul_zero, add_zero, mul_one]
      rcases h2 a with rfl | rfl
      · rw [hz, double_zero, SPauli.scalar_zero, one_mul, Z_eq]; rfl
      · rw [hz, d1, Z_eq, ← signed_true]; rfl
    · rw [if_neg h, if_neg (fun e => h (by rw [e])), double_zero, SPauli.scalar_zero, one_mul]

/-! ## Gates -/

theorem localTableau_valid (q : ℕ) (im : (Bool × ZMod 2 × ZMod 2) × (Bool × ZMod 2 × ZMod 2))
    (h : im.1.2.1 * im.2.2.2 + im.1.2.2 * im.2.2.1 = 1) : (localTableau n q im).Valid := by
  have hx : ∀ j, ∃ m a b, (localTableau n q im).xs j = SPauli.signed m (oneQubit j a b) ∧
      a = (if j.val = q then im.1.2.1 else 1) ∧ b = if j.val = q then im.1.2.2 else 0 := by
    intro j
    unfold localTableau
    dsimp only
    split_ifs
    · exact ⟨_, _, _, rfl, rfl, rfl⟩
    · exact ⟨_, _, _, X_eq j, rfl, rfl⟩
  have hz : ∀ j, ∃ m a b, (localTableau n q im).zs j = SPauli.signed m (oneQubit j a b) ∧
      a = (if j.val = q then im.2.2.1 else 0) ∧ b = if j.val = q then im.2.2.2 else 1 := by
    intro j
    unfold localTableau
    dsimp only
    split_ifs
    · exact ⟨_, _, _, rfl, rfl, rfl⟩
    · exact ⟨_, _, _, Z_eq j, rfl, rfl⟩
  constructor
  · intro j; obtain ⟨m, a, b, e, -⟩ := hx j; rw [e]; exact signed_signed _ _
  · intro j; obtain ⟨m, a, b, e, -⟩ := hz j; rw [e]; exact signed_signed _ _
  · intro i j
    obtain ⟨m, a, b, e, ea, eb⟩ := hx i
    obtain ⟨m', a', b', e', ea', eb'⟩ := hx j
    rw [e, e', signed_op, signed_op, sform_oneQubit]
    split_ifs with hij
    · subst hij
      rw [ea, eb, ea', eb', mul_comm, CharTwo.add_self_eq_zero]
    · rfl
  · intro i j
    obtain ⟨m, a, b, e, ea, eb⟩ := hz i
    obtain ⟨m', a', b', e', ea', eb'⟩ := hz j
    rw [e, e', signed_op, signed_op, sform_oneQubit]
    split_ifs with hij
    · subst hij
      rw [ea, eb, ea', eb', mul_comm, CharTwo.add_self_eq_zero]
    · rfl
  · intro i j
    obtain ⟨m, a, b, e, ea, eb⟩ := hx i
    obtain ⟨m', a', b', e', ea', eb'⟩ := hz j
    rw [e, e', signed_op, signed_op, sform_oneQubit]
    by_cases hij : i = j
    · subst hij
      rw [if_pos rfl, if_pos rfl, ea, eb, ea', eb']
      split_ifs
      · exact h
      · simp
    · rw [if_neg hij, if_neg hij]

/-- The exchange of two qubits. -/
def exchange (n a b : ℕ) (j : Fin n) : Fin n :=
  if j.val = a then (if h : b < n then ⟨b, h⟩ else j) else if j.val = b then (if h : a < n then ⟨a, h⟩ else j) else j

theorem exchange_exchange (a b : ℕ) (j : Fin n) : exchange n a b (exchange n a b j) = j := by
  have hj := j.isLt
  apply Fin.ext
  unfold exchange
  split_ifs <;> simp_all

theorem swapTableau_valid (a b : ℕ) : (swapTableau n a b).Valid where
  sx _ := signed_plus _
  sz _ := signed_plus _
  xx _ _ := sform_XX _ _
  zz _ _ := sform_ZZ _ _
  xz i j := by
    change sform (SPauli.X (exchange n a b i)).op (SPauli.Z (exchange n a b j)).op = _
    rw [sform_XZ]
    exact if_congr ⟨fun e => by rw [← exchange_exchange a b i, e, exchange_exchange], fun e => by rw [e]⟩ rfl rfl

theorem Instr.valid (g : Instr) : (g.tableau n).Valid := by
  cases g with
  | X q => exact localTableau_valid _ _ (by decide)
  | Y q => exact localTableau_valid _ _ (by decide)
  | Z q => exact localTableau_valid _ _ (by decide)
  | gate g =>
    cases g with
    | SWAP a b => exact swapTableau_valid a b
    | _ => exact localTableau_valid _ _ (by simp only [Gate.images]; decide)

/-! ## Circuits -/

theorem circuitTableau_nil : circuitTableau n [] = Tableau.identity n := rfl

theorem circuitTableau_concat (c : List Instr) (g : Instr) :
    circuitTableau n (c ++ [g]) = (circuitTableau n c).andThen (g.tableau n) := by
  unfold circuitTableau
  rw [List.foldl_append]; rfl

theorem circuitTableau_valid (c : List Instr) : (circuitTableau n c).Valid := by
  induction c using List.reverseRecOn with
  | nil => exact Tableau.valid_identity
  | append_singleton c g ih => rw [circuitTableau_concat]; exact ih.andThen g.valid

theorem apply_circuit_append (c d : List Instr) (p : SPauli n) :
    (circuitTableau n (c ++ d)).apply p = (circuitTableau n d).apply ((circuitTableau n c).apply p) := by
  induction d using List.reverseRecOn with
  | nil => rw [List.append_nil, circuitTableau_nil, Tableau.apply_identity]
  | append_singleton d g ih =>
    rw [← List.append_assoc, circuitTableau_concat, Tableau.apply_andThen (circuitTableau_valid _) g.valid, ih,
      circuitTableau_concat, Tableau.apply_andThen (circuitTableau_valid _) g.valid]

theorem circuitTableau_one (g : Instr) (p : SPauli n) : (circuitTableau n [g]).apply p = (g.tableau n).apply p := by
  rw [← List.nil_append [g], circuitTableau_concat, Tableau.apply_andThen (circuitTableau_valid _) g.valid,
    circuitTableau_nil, Tableau.apply_identity]

theorem apply_instr_pauli (j : Fin n) (p : SPauli n) :
    ((Instr.X j).tableau n).apply p = conjPauli (oneQubit j 1 0) p ∧
    ((Instr.Y j).tableau n).apply p = conjPauli (oneQubit j 1 1) p ∧
    ((Instr.Z j).tableau n).apply p = conjPauli (oneQubit j 0 1) p := by
  refine ⟨?_, ?_, ?_⟩
  · have h := localTableau_pauli j 1 0 false true (by decide) (by decide)
    exact (isHom_conjPauli _).eq_apply h.1 h.2 p
  · have h := localTableau_pauli j 1 1 true true (by decide) (by decide)
    exact (isHom_conjPauli _).eq_apply h.1 h.2 p
  · have h := localTableau_pauli j 0 1 true false (by decide) (by decide)
    exact (isHom_conjPauli _).eq_apply h.1 h.2 p

theorem apply_circuit_map (I : ℕ → Instr) (v : Fin n → Fin (n + n) → ZMod 2)
    (hI : ∀ j p, ((I (j : Fin n)).tableau n).apply p = conjPauli (v j) p) (l : List (Fin n)) (p : SPauli n) :
    (circuitTableau n ((l.map Fin.val).map I)).apply p = conjPauli (l.map v).sum p := by
  induction l generalizing p with
  | nil => rw [List.map_nil, List.map_nil, circuitTableau_nil, Tableau.apply_identity, List.map_nil, List.sum_nil, conjPauli_zero]
  | cons j l ih =>
    rw [List.map_cons, List.map_cons, ← List.singleton_append, apply_circuit_append, circuitTableau_one, hI, ih, List.map_cons,
      List.sum_cons, conjPauli_add]

theorem sum_filter_finRange (P : Fin n → Bool) (v : Fin n → Fin (n + n) → ZMod 2) :
    (((List.finRange n).filter P).map v).sum = ∑ i, if P i then v i else 0 := by
  rw [← List.sum_ofFn, List.ofFn_eq_map]
  generalize List.finRange n = l
  induction l with
  | nil => rfl
  | cons j l ih =>
    by_cases h : P j
    · rw [List.filter_cons_of_pos h, List.map_cons, List.sum_cons, ih, List.map_cons, List.sum_cons, if_pos h]
    · rw [List.filter_cons_of_neg h, ih, List.map_cons, List.sum_cons, if_neg h, zero_add]

theorem sum_oneQubit (u : Fin (n + n) → ZMod 2) : (∑ i, oneQubit i (xPart u i) (zPart u i)) = u := by
  funext k
  rw [Finset.sum_apply]
  refine Fin.addCases (fun k => ?_) (fun k => ?_) k
  · rw [Finset.sum_eq_single k]
    · unfold oneQubit; rw [Fin.append_left, Pi.single_eq_same]; rfl
    · intro j _ hj; unfold oneQubit; rw [Fin.append_left, Pi.single_eq_of_ne hj.symm]
    · intro h; exact absurd (Finset.mem_univ _) h
  · rw [Finset.sum_eq_single k]
    · unfold oneQubit; rw [Fin.append_right, Pi.single_eq_same]; rfl
    · intro j _ hj; unfold oneQubit; rw [Fin.append_right, Pi.single_eq_of_ne hj.symm]
    · intro h; exact absurd (Finset.mem_univ _) h

theorem oneQubit_zero (i : Fin n) : oneQubit i 0 0 = 0 := by
  unfold oneQubit
  rw [Pi.single_zero]
  funext k
  refine Fin.addCases (fun k => ?_) (fun k => ?_) k
  · rw [Fin.append_left]; rfl
  · rw [Fin.append_right]; rfl

/-- The circuit of a Pauli string conjugates by the string. -/
theorem apply_pauliString (u : Fin (n + n) → ZMod 2) (p : SPauli n) :
    (circuitTableau n (pauliStringCircuit u)).apply p = conjPauli u p := by
  unfold pauliStringCircuit
  dsimp only
  rw [apply_circuit_append, apply_circuit_append,
    apply_circuit_map Instr.X (fun j => oneQubit j 1 0) (fun j p => (apply_instr_pauli j p).1),
    apply_circuit_map Instr.Y (fun j => oneQubit j 1 1) (fun j p => (apply_instr_pauli j p).2.1),
    apply_circuit_map Instr.Z (fun j => oneQubit j 0 1) (fun j p => (apply_instr_pauli j p).2.2),
    ← conjPauli_add, ← conjPauli_add, sum_filter_finRange, sum_filter_finRange, sum_filter_finRange,
    ← Finset.sum_add_distrib, ← Finset.sum_add_distrib]
  congr 1
  conv_rhs => rw [← sum_oneQubit u]
  refine Finset.sum_congr rfl fun i _ => ?_
  have h2 : ∀ a : ZMod 2, a = 0 ∨ a = 1 := by decide
  rcases h2 (xPart u i) with hx | hx <;> rcases h2 (zPart u i) with hz | hz <;> rw [hx, hz] <;> simp [oneQubit_zero]

/-! ## Bits -/

theorem opMap_eq (T : Tableau n) (u : Fin (n + n) → ZMod 2) :
    T.opMap u = (∑ j, xPart u j • (T.xs j).op) + ∑ j, zPart u j • (T.zs j).op := by
  unfold Tableau.opMap
  rw [apply_eq, scalar_mul_op, mul_op, powProd_op, powProd_op]

/-- Bits of a string, by qubit. -/
def qubitBits (u : Fin (n + n) → ZMod 2) (i : ℕ) : ZMod 2 × ZMod 2 :=
  if h : i < n then (xPart u ⟨i, h⟩, zPart u ⟨i, h⟩) else (0, 0)

theorem qubitBits_lt (u : Fin (n + n) → ZMod 2) (i : Fin n) : qubitBits u i = (xPart u i, zPart u i) := by
  unfold qubitBits; rw [dif_pos i.isLt]

theorem opMap_oneQubit {T : Tableau n} {a b c d : Fin n → ZMod 2} (hx : ∀ j, (T.xs j).op = oneQubit j (a j) (b j))
    (hz : ∀ j, (T.zs j).op = oneQubit j (c j) (d j)) (u : Fin (n + n) → ZMod 2) (i : Fin n) :
    xPart (T.opMap u) i = xPart u i * a i + zPart u i * c i ∧ zPart (T.opMap u) i = xPart u i * b i + zPart u i * d i := by
  rw [opMap_eq]
  simp only [hx, hz]
  have key : ∀ (w a b : Fin n → ZMod 2), xPart (∑ j, w j • oneQubit j (a j) (b j)) i = w i * a i ∧
      zPart (∑ j, w j • oneQubit j (a j) (b j)) i = w i * b i := by
    intro w a b
    constructor
    · change (∑ j, w j • oneQubit j (a j) (b j)) (Fin.castAdd n i) = _
      rw [Finset.sum_apply, Finset.sum_eq_single i]
      · rw [Pi.smul_apply]; unfold oneQubit; rw [Fin.append_left, Pi.single_eq_same]; rfl
      · intro j _ hj; rw [Pi.smul_apply]; unfold oneQubit; rw [Fin.append_left, Pi.single_eq_of_ne hj.symm]; simp
      · intro h; exact absurd (Finset.mem_univ _) h
    · change (∑ j, w j • oneQubit j (a j) (b j)) (Fin.natAdd n i) = _
      rw [Finset.sum_apply, Finset.sum_eq_single i]
      · rw [Pi.smul_apply]; unfold oneQubit; rw [Fin.append_right, Pi.single_eq_same]; rfl
      · intro j _ hj; rw [Pi.smul_apply]; unfold oneQubit; rw [Fin.append_right, Pi.single_eq_of_ne hj.symm]; simp
      · intro h; exact absurd (Finset.mem_univ _) h
  rw [SPauli.xPart_add, SPauli.zPart_add, (key _ _ _).1, (key _ _ _).1, (key _ _ _).2, (key _ _ _).2]
  exact ⟨rfl, rfl⟩

theorem opMap_localTableau (q : ℕ) (im : (Bool × ZMod 2 × ZMod 2) × (Bool × ZMod 2 × ZMod 2)) (u : Fin (n + n) → ZMod 2)
    (i : Fin n) : qubitBits ((localTableau n q im).opMap u) i = if i.val = q then
      (xPart u i * im.1.2.1 + zPart u i * im.2.2.1, xPart u i * im.1.2.2 + zPart u i * im.2.2.2) else qubitBits u i := by
  have h := opMap_oneQubit (T := localTableau n q im) (a := fun j => if j.val = q then im.1.2.1 else 1)
    (b := fun j => if j.val = q then im.1.2.2 else 0) (c := fun j => if j.val = q then im.2.2.1 else 0)
    (d := fun j => if j.val = q then im.2.2.2 else 1)
    (fun j => by unfold localTableau; dsimp only; split_ifs <;> [rw [signed_op]; rw [op_X']])
    (fun j => by unfold localTableau; dsimp only; split_ifs <;> [rw [signed_op]; rw [op_Z']]) u i
  rw [qubitBits_lt, qubitBits_lt, h.1, h.2]
  split_ifs <;> simp

theorem opMap_swapTableau (a b : ℕ) (u : Fin (n + n) → ZMod 2) (i : Fin n) :
    qubitBits ((swapTableau n a b).opMap u) i = qubitBits u (exchange n a b i) := by
  have e : (swapTableau n a b).opMap u =
      (∑ j, xPart u j • (SPauli.X (exchange n a b j)).op) + ∑ j, zPart u j • (SPauli.Z (exchange n a b j)).op := opMap_eq _ _
  let ε : Equiv.Perm (Fin n) := ⟨exchange n a b, exchange n a b, exchange_exchange a b, exchange_exchange a b⟩
  have e' : (swapTableau n a b).opMap u =
      ∑ j, oneQubit j (xPart u (exchange n a b j)) (zPart u (exchange n a b j)) := by
    rw [e, ← Finset.sum_add_distrib, ← Equiv.sum_comp ε]
    refine Finset.sum_congr rfl fun j _ => ?_
    change xPart u (exchange n a b j) • (SPauli.X (exchange n a b (exchange n a b j))).op +
      zPart u (exchange n a b j) • (SPauli.Z (exchange n a b (exchange n a b j))).op = _
    rw [exchange_exchange, op_X', op_Z']
    unfold oneQubit
    funext k
    refine Fin.addCases (fun k => ?_) (fun k => ?_) k
    · simp only [Pi.add_apply, Pi.smul_apply, Fin.append_left, Pi.single_apply]
      split_ifs <;> simp
    · simp only [Pi.add_apply, Pi.smul_apply, Fin.append_right, Pi.single_apply]
      split_ifs <;> simp
  have e'' := sum_oneQubit (Fin.append (fun j => xPart u (exchange n a b j)) (fun j => zPart u (exchange n a b j)))
  rw [xPart_append, zPart_append] at e''
  rw [e', e'', qubitBits_lt, qubitBits_lt, xPart_append, zPart_append]

/-- Targets of SWAPs are qubits. -/
def Gate.InRange (n : ℕ) : Gate → Prop
  | .SWAP a b => a < n ∧ b < n
  | _ => True

theorem opMap_gate (g : Gate) (hg : g.InRange n) (u : Fin (n + n) → ZMod 2) (f : ℕ → ZMod 2 × ZMod 2)
    (hf : ∀ i : Fin n, f i = qubitBits u i) (i : Fin n) :
    qubitBits (((Instr.gate g).tableau n).opMap u) i = g.act f i := by
  cases g with
  | SWAP a b =>
    change qubitBits ((swapTableau n a b).opMap u) i = _
    rw [opMap_swapTableau]
    unfold Gate.act exchange
    dsimp only
    obtain ⟨ha, hb⟩ := hg
    split_ifs with h1 h2
    · exact (hf ⟨b, hb⟩).symm
    · exact (hf ⟨a, ha⟩).symm
    · exact (hf i).symm
  | _ =>
    simp only [Instr.tableau, Gate.act]
    rw [opMap_localTableau]
    split_ifs with h
    · rw [hf i, qubitBits_lt]
      simp [Gate.images, Gate.local]
    · exact (hf i).symm

/-- The circuit acts on bits as in `Verif/Model/Circuits.lean`. -/
theorem opMap_circuit (c : List Gate) (hc : ∀ g ∈ c, g.InRange n) (u : Fin (n + n) → ZMod 2) :
    (circuitTableau n (c.map Instr.gate)).opMap u = conjugateBy c u := by
  have key : ∀ i : Fin n, qubitBits ((circuitTableau n (c.map Instr.gate)).opMap u) i =
      runCircuit c (fun i => if h : i < n then (xPart u ⟨i, h⟩, zPart u ⟨i, h⟩) else (0, 0)) i := by
    induction c using List.reverseRecOn with
    | nil =>
      intro i
      have : (circuitTableau n ([].map Instr.gate)).opMap u = u := by
        unfold Tableau.opMap
        rw [List.map_nil, circuitTableau_nil, Tableau.apply_identity]
      rw [this]; rfl
    | append_singleton c g ih =>
      intro i
      have e : (circuitTableau n ((c ++ [g]).map Instr.gate)).opMap u =
          ((Instr.gate g).tableau n).opMap ((circuitTableau n (c.map Instr.gate)).opMap u) := by
        conv_lhs => unfold Tableau.opMap
        rw [List.map_append, List.map_singleton, circuitTableau_concat,
          Tableau.apply_andThen (circuitTableau_valid _) (Instr.valid _), Tableau.apply_op]
        rfl
      rw [e, opMap_gate g (hc g (by simp)) _ _ (fun i => (ih (fun g hg => hc g (by simp [hg])) i).symm) i]
      unfold runCircuit
      rw [List.foldl_append]; rfl
  rw [← append_parts ((circuitTableau n (c.map Instr.gate)).opMap u)]
  unfold conjugateBy
  dsimp only
  congr 1
  · funext i
    have := congrArg Prod.fst (key i)
    rwa [qubitBits_lt] at this
  · funext i
    have := congrArg Prod.snd (key i)
    rwa [qubitBits_lt] at this

end QLDPC
