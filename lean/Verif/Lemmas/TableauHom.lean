import Verif.Lemmas.Pauli

/-! # Tableaus are homomorphisms of the Pauli group -/

namespace QLDPC

open Spec SPauli

variable {n m : ℕ}

/-- Homomorphisms of Pauli groups that fix the phases. -/
structure IsHom (f : SPauli n → SPauli m) : Prop where
  mul : ∀ p q, f (p * q) = f p * f q
  scalar : ∀ a, f (SPauli.scalar a) = SPauli.scalar a

namespace IsHom

variable {f : SPauli n → SPauli m}

theorem one (h : IsHom f) : f 1 = 1 := by rw [← SPauli.scalar_zero, h.scalar]; rfl

theorem smul (h : IsHom f) (a : ZMod 4) (p : SPauli n) : f (SPauli.scalar a * p) = SPauli.scalar a * f p := by
  rw [h.mul, h.scalar]

theorem signed (h : IsHom f) {p : SPauli n} (hp : Signed p) : Signed (f p) := by
  unfold Signed at *
  rw [← h.mul, hp, h.one]

theorem sform (h : IsHom f) (p q : SPauli n) : sform (f p).op (f q).op = sform p.op q.op := by
  have h1 := congrArg f (mul_comm_sform p q)
  rw [h.mul, h.smul, h.mul, mul_comm_sform] at h1
  have h2 := mul_right_cancel h1
  exact double_inj.1 (scalar_inj.1 h2)

theorem bitPow (h : IsHom f) (p : SPauli n) (b : ZMod 2) :
    f (Tableau.bitPow p b) = if b = 0 then 1 else f p := by
  unfold Tableau.bitPow
  split_ifs
  · exact h.one
  · rfl

theorem list_prod (h : IsHom f) (l : List (SPauli n)) : f l.prod = (l.map f).prod := by
  induction l with
  | nil => exact h.one
  | cons a l ih => rw [List.prod_cons, h.mul, ih, List.map_cons, List.prod_cons]

theorem comp {k : ℕ} {g : SPauli m → SPauli k} (hg : IsHom g) (h : IsHom f) : IsHom (g ∘ f) :=
  ⟨fun p q => by simp [h.mul, hg.mul], fun a => by simp [h.scalar, hg.scalar]⟩

/-- The bits of an image depend only on the bits. -/
theorem op_congr (h : IsHom f) {p q : SPauli n} (e : p.op = q.op) : (f p).op = (f q).op := by
  have : p = SPauli.scalar (p.phase - q.phase) * q := by
    rw [scalar_mul]
    ext1
    · ring
    · exact e
  rw [this, h.smul, scalar_mul_op]

theorem op_add (h : IsHom f) (u v : Fin (n + n) → ZMod 2) : (f (plus (u + v))).op = (f (plus u)).op + (f (plus v)).op := by
  rw [← mul_op, ← h.mul]
  exact h.op_congr rfl

end IsHom

/-! ## Products of powers -/

/-- `∏_j a_j^{b_j}` -/
def powProd (a : Fin n → SPauli m) (b : Fin n → ZMod 2) : SPauli m :=
  (List.ofFn fun j => Tableau.bitPow (a j) (b j)).prod

theorem apply_eq (T : Tableau n) (p : SPauli n) :
    T.apply p = SPauli.scalar p.phase * (powProd T.xs (xPart p.op) * powProd T.zs (zPart p.op)) := rfl

theorem op_list_prod (l : List (SPauli n)) : l.prod.op = (l.map SPauli.op).sum := by
  induction l with
  | nil => rfl
  | cons a l ih => rw [List.prod_cons, mul_op, ih, List.map_cons, List.sum_cons]

theorem bitPow_op (p : SPauli n) (b : ZMod 2) : (Tableau.bitPow p b).op = b • p.op := by
  unfold Tableau.bitPow
  split_ifs with h
  · rw [h, zero_smul]; rfl
  · have : b = 1 := by revert h; revert b; decide
    rw [this, one_smul]

theorem powProd_op (a : Fin n → SPauli m) (b : Fin n → ZMod 2) : (powProd a b).op = ∑ j, b j • (a j).op := by
  unfold powProd
  rw [op_list_prod, List.map_ofFn, List.sum_ofFn]
  exact Finset.sum_congr rfl fun j _ => bitPow_op _ _

theorem bitPow_add {p : SPauli n} (hp : Signed p) (a b : ZMod 2) :
    Tableau.bitPow p (a + b) = Tableau.bitPow p a * Tableau.bitPow p b := by
  have : ∀ a : ZMod 2, a = 0 ∨ a = 1 := by decide
  have h10 : (1 : ZMod 2) ≠ 0 := by decide
  have h11 : (1 + 1 : ZMod 2) = 0 := by decide
  unfold Tableau.bitPow
  rcases this a with rfl | rfl <;> rcases this b with rfl | rfl
  · simp
  · simp
  · simp
  · rw [h11, if_pos rfl, if_neg h10]; exact hp.symm

theorem commute_bitPow {p q : SPauli n} (h : sform p.op q.op = 0) (a b : ZMod 2) :
    Commute (Tableau.bitPow p a) (Tableau.bitPow q b) := by
  unfold Tableau.bitPow
  split_ifs
  · exact Commute.one_left _
  · exact Commute.one_left _
  · exact Commute.one_right _
  · exact (commute_iff _ _).2 h

theorem powProd_add {a : Fin n → SPauli m} (hs : ∀ j, Signed (a j)) (hc : ∀ i j, sform (a i).op (a j).op = 0)
    (b c : Fin n → ZMod 2) : powProd a (b + c) = powProd a b * powProd a c := by
  unfold powProd
  rw [List.ofFn_eq_map, List.ofFn_eq_map, List.ofFn_eq_map]
  generalize List.finRange n = l
  induction l with
  | nil => simp
  | cons j l ih =>
    simp only [List.map_cons, List.prod_cons]
    rw [ih, Pi.add_apply, bitPow_add (hs j)]
    have h : Commute (Tableau.bitPow (a j) (c j)) (l.map fun i => Tableau.bitPow (a i) (b i)).prod := by
      apply Commute.list_prod_right
      intro x hx
      obtain ⟨i, -, rfl⟩ := List.mem_map.1 hx
      exact commute_bitPow (hc j i) _ _
    rw [mul_assoc, ← mul_assoc (Tableau.bitPow (a j) (c j)), h.eq]
    simp only [mul_assoc]

theorem powProd_zero (a : Fin n → SPauli m) : powProd a 0 = 1 := by
  unfold powProd
  rw [List.ofFn_eq_map]
  apply List.prod_eq_one
  intro x hx
  obtain ⟨i, -, rfl⟩ := List.mem_map.1 hx
  simp [Tableau.bitPow]

/-! ## Valid tableaus -/

/-- The images satisfy the relations of `X_j` and `Z_j`. -/
structure Tableau.Valid (T : Tableau n) : Prop where
  sx : ∀ j, Signed (T.xs j)
  sz : ∀ j, Signed (T.zs j)
  xx : ∀ i j, sform (T.xs i).op (T.xs j).op = 0
  zz : ∀ i j, sform (T.zs i).op (T.zs j).op = 0
  xz : ∀ i j, sform (T.xs i).op (T.zs j).op = if i = j then 1 else 0

theorem Tableau.Valid.sform_powProd {T : Tableau n} (h : T.Valid) (z x : Fin n → ZMod 2) :
    sform (powProd T.zs z).op (powProd T.xs x).op = ∑ i, z i * x i := by
  rw [powProd_op, powProd_op, sform_sum_left]
  refine Finset.sum_congr rfl fun i _ => ?_
  rw [sform_smul_left, sform_sum_right, Finset.sum_eq_single i]
  · rw [sform_smul_right, sform_comm2, h.xz, if_pos rfl, mul_one]
  · intro j _ hj
    rw [sform_smul_right, sform_comm2, h.xz, if_neg hj, mul_zero]
  · intro hi; exact absurd (Finset.mem_univ _) hi

theorem Tableau.Valid.isHom {T : Tableau n} (h : T.Valid) : IsHom T.apply where
  scalar a := by
    rw [apply_eq]
    have hx : xPart (SPauli.scalar a : SPauli n).op = 0 := rfl
    have hz : zPart (SPauli.scalar a : SPauli n).op = 0 := rfl
    rw [hx, hz, powProd_zero, powProd_zero, mul_one, mul_one]
    rfl
  mul p q := by
    rw [apply_eq, apply_eq, apply_eq]
    have hx : xPart (p * q).op = xPart p.op + xPart q.op := rfl
    have hz : zPart (p * q).op = zPart p.op + zPart q.op := rfl
    rw [hx, hz, powProd_add h.sx h.xx, powProd_add h.sz h.zz, mul_phase, scalar_add, scalar_add]
    set A := powProd T.xs (xPart p.op)
    set A' := powProd T.xs (xPart q.op) with hA'
    set B := powProd T.zs (zPart p.op) with hB
    set B' := powProd T.zs (zPart q.op)
    have hBA : B * A' = SPauli.scalar (double (∑ i, zPart p.op i * xPart q.op i)) * (A' * B) := by
      rw [mul_comm_sform, hA', hB, h.sform_powProd]
    set s := (SPauli.scalar p.phase : SPauli n)
    set t := (SPauli.scalar q.phase : SPauli n) with ht
    set d := (SPauli.scalar (double (∑ i, zPart p.op i * xPart q.op i)) : SPauli n) with hd
    have hdA : d * A = A * d := (mul_scalar _ _).symm
    have htA : t * A = A * t := (mul_scalar _ _).symm
    have htB : t * B = B * t := (mul_scalar _ _).symm
    calc s * t * d * (A * A' * (B * B')) = s * t * (d * A) * (A' * B * B') := by simp only [mul_assoc]
      _ = s * (t * A) * (d * (A' * B)) * B' := by rw [hdA]; simp only [mul_assoc]
      _ = s * A * (t * B) * A' * B' := by rw [← hBA, htA]; simp only [mul_assoc]
      _ = s * (A * B) * (t * (A' * B')) := by rw [htB]; simp only [mul_assoc]

/-! ## Operators are products of generators -/

theorem phase_list_prod {l : List (SPauli n)} (hp : ∀ p ∈ l, p.phase = 0)
    (h : (∀ p ∈ l, xPart p.op = 0) ∨ ∀ p ∈ l, zPart p.op = 0) : l.prod.phase = 0 := by
  induction l with
  | nil => rfl
  | cons a l ih =>
    rw [List.prod_cons, mul_phase, hp a List.mem_cons_self,
      ih (fun p q => hp p (List.mem_cons_of_mem _ q)) (h.imp (fun h p q => h p (List.mem_cons_of_mem _ q))
        (fun h p q => h p (List.mem_cons_of_mem _ q)))]
    have : (∑ i, zPart a.op i * xPart l.prod.op i) = 0 := by
      rcases h with h | h
      · have hx : xPart l.prod.op = 0 := by
          clear ih hp
          induction l with
          | nil => rfl
          | cons b l ih =>
            funext i
            rw [List.prod_cons, mul_op, SPauli.xPart_add, h b (by simp), ih (fun p q => h p (by
              rcases List.mem_cons.1 q with q | q
              · exact q ▸ List.mem_cons_self
              · exact List.mem_cons_of_mem _ (List.mem_cons_of_mem _ q)))]
            rfl
        rw [hx]; simp
      · rw [h a List.mem_cons_self]; simp
    rw [this, double_zero]; rfl

theorem X_phase (j : Fin n) : (SPauli.X j : SPauli n).phase = 0 := by
  change ((countY _ : ℕ) : ZMod 4) = 0
  rw [countY_zero_left, Nat.cast_zero]
  intro i; right; rw [zPart_append]; rfl

theorem Z_phase (j : Fin n) : (SPauli.Z j : SPauli n).phase = 0 := by
  change ((countY _ : ℕ) : ZMod 4) = 0
  rw [countY_zero_left, Nat.cast_zero]
  intro i; left; rw [xPart_append]; rfl

theorem bitPow_phase {p : SPauli n} (h : p.phase = 0) (b : ZMod 2) : (Tableau.bitPow p b).phase = 0 := by
  unfold Tableau.bitPow
  split_ifs
  · rfl
  · exact h

theorem sum_smul_single (b : Fin n → ZMod 2) : (∑ j, b j • (Pi.single j 1 : Fin n → ZMod 2)) = b := by
  funext i
  rw [Finset.sum_apply, Finset.sum_eq_single i]
  · simp
  · intro j _ hj
    simp [Pi.single_eq_of_ne hj.symm]
  · intro h; exact absurd (Finset.mem_univ _) h

theorem powProd_X (b : Fin n → ZMod 2) : powProd SPauli.X b = ⟨0, Fin.append b 0⟩ := by
  ext1
  · unfold powProd
    rw [List.ofFn_eq_map]
    apply phase_list_prod
    · intro p hp
      obtain ⟨j, -, rfl⟩ := List.mem_map.1 hp
      exact bitPow_phase (X_phase j) _
    · right
      intro p hp
      obtain ⟨j, -, rfl⟩ := List.mem_map.1 hp
      funext i
      rw [bitPow_op, X_op]
      change b j * zPart (Fin.append (Pi.single j 1) 0 : Fin (n + n) → ZMod 2) i = 0
      rw [zPart_append]; simp
  · rw [powProd_op]
    funext i
    refine Fin.addCases (fun i => ?_) (fun i => ?_) i
    · change _ = Fin.append b 0 (Fin.castAdd n i)
      rw [Fin.append_left, Finset.sum_apply]
      conv_rhs => rw [← sum_smul_single b]
      rw [Finset.sum_apply]
      exact Finset.sum_congr rfl fun j _ => by rw [Pi.smul_apply, Pi.smul_apply, X_op, Fin.append_left]
    · change _ = Fin.append b 0 (Fin.natAdd n i)
      rw [Fin.append_right, Finset.sum_apply]
      exact Finset.sum_eq_zero fun j _ => by rw [Pi.smul_apply, X_op, Fin.append_right]; simp

theorem powProd_Z (b : Fin n → ZMod 2) : powProd SPauli.Z b = ⟨0, Fin.append 0 b⟩ := by
  ext1
  · unfold powProd
    rw [List.ofFn_eq_map]
    apply phase_list_prod
    · intro p hp
      obtain ⟨j, -, rfl⟩ := List.mem_map.1 hp
      exact bitPow_phase (Z_phase j) _
    · left
      intro p hp
      obtain ⟨j, -, rfl⟩ := List.mem_map.1 hp
      funext i
      rw [bitPow_op, Z_op]
      change b j * xPart (Fin.append 0 (Pi.single j 1) : Fin (n + n) → ZMod 2) i = 0
      rw [xPart_append]; simp
  · rw [powProd_op]
    funext i
    refine Fin.addCases (fun i => ?_) (fun i => ?_) i
    · change _ = Fin.append 0 b (Fin.castAdd n i)
      rw [Fin.append_left, Finset.sum_apply]
      exact Finset.sum_eq_zero fun j _ => by rw [Pi.smul_apply, Z_op, Fin.append_left]; simp
    · change _ = Fin.append 0 b (Fin.natAdd n i)
      rw [Fin.append_right, Finset.sum_apply]
      conv_rhs => rw [← sum_smul_single b]
      rw [Finset.sum_apply]
      exact Finset.sum_congr rfl fun j _ => by rw [Pi.smul_apply, Pi.smul_apply, Z_op, Fin.append_right]

theorem factor (p : SPauli n) :
    p = SPauli.scalar p.phase * (powProd SPauli.X (xPart p.op) * powProd SPauli.Z (zPart p.op)) := by
  rw [powProd_X, powProd_Z, scalar_mul]
  ext1
  · rw [mul_phase]
    simp only [xPart_append, zPart_append]
    simp [double_zero]
  · rw [mul_op]
    conv_lhs => rw [← append_parts p.op]
    funext i
    refine Fin.addCases (fun i => ?_) (fun i => ?_) i
    · simp only [Pi.add_apply, Fin.append_left, Pi.zero_apply, add_zero]
    · simp only [Pi.add_apply, Fin.append_right, Pi.zero_apply, zero_add]

theorem IsHom.powProd {f : SPauli n → SPauli m} (h : IsHom f) {k : ℕ} (a : Fin k → SPauli n) (b : Fin k → ZMod 2) :
    f (powProd a b) = QLDPC.powProd (fun j => f (a j)) b := by
  unfold QLDPC.powProd
  rw [h.list_prod, List.map_ofFn]
  congr 2
  funext j
  exact h.bitPow _ _

/-- A homomorphism is determined by the images of the generators. -/
theorem IsHom.eq_powProd {f : SPauli n → SPauli m} (h : IsHom f) (p : SPauli n) :
    f p = SPauli.scalar p.phase * (QLDPC.powProd (fun j => f (SPauli.X j)) (xPart p.op) *
      QLDPC.powProd (fun j => f (SPauli.Z j)) (zPart p.op)) := by
  conv_lhs => rw [factor p]
  rw [h.smul, h.mul, h.powProd, h.powProd]

theorem IsHom.eq_apply {f : SPauli n → SPauli n} (h : IsHom f) {T : Tableau n} (hx : ∀ j, T.xs j = f (SPauli.X j))
    (hz : ∀ j, T.zs j = f (SPauli.Z j)) (p : SPauli n) : T.apply p = f p := by
  rw [h.eq_powProd, apply_eq, funext hx, funext hz]

theorem sform_XX (i j : Fin n) : sform (SPauli.X i : SPauli n).op (SPauli.X j : SPauli n).op = 0 := by
  rw [X_op, X_op, sform_two]; simp only [xPart_append, zPart_append]; simp

theorem sform_ZZ (i j : Fin n) : sform (SPauli.Z i : SPauli n).op (SPauli.Z j : SPauli n).op = 0 := by
  rw [Z_op, Z_op, sform_two]; simp only [xPart_append, zPart_append]; simp

theorem sform_X (j : Fin n) (p : Fin (n + n) → ZMod 2) : sform (SPauli.X j : SPauli n).op p = zPart p j := by
  rw [X_op, sform_two]; simp only [xPart_append, zPart_append]
  rw [Finset.sum_eq_zero (fun i _ => by simp), zero_add, Finset.sum_eq_single j]
  · simp
  · intro i _ hi; simp [Pi.single_eq_of_ne hi]
  · intro h; exact absurd (Finset.mem_univ _) h

theorem sform_Z (j : Fin n) (p : Fin (n + n) → ZMod 2) : sform (SPauli.Z j : SPauli n).op p = xPart p j := by
  rw [Z_op, sform_two]; simp only [xPart_append, zPart_append]
  rw [Finset.sum_eq_single j]
  · simp
  · intro i _ hi; simp [Pi.single_eq_of_ne hi]
  · intro h; exact absurd (Finset.mem_univ _) h

theorem sform_XZ (i j : Fin n) : sform (SPauli.X i : SPauli n).op (SPauli.Z j : SPauli n).op = if i = j then 1 else 0 := by
  rw [sform_X, Z_op, zPart_append, Pi.single_apply]

/-- The images of the generators under a homomorphism are a valid tableau. -/
theorem IsHom.valid {f : SPauli n → SPauli n} (h : IsHom f) {T : Tableau n} (hx : ∀ j, T.xs j = f (SPauli.X j))
    (hz : ∀ j, T.zs j = f (SPauli.Z j)) : T.Valid where
  sx j := by rw [hx]; exact h.signed (signed_plus _)
  sz j := by rw [hz]; exact h.signed (signed_plus _)
  xx i j := by rw [hx, hx, h.sform, sform_XX]
  zz i j := by rw [hz, hz, h.sform, sform_ZZ]
  xz i j := by rw [hx, hz, h.sform, sform_XZ]

theorem isHom_id : IsHom (id : SPauli n → SPauli n) := ⟨fun _ _ => rfl, fun _ => rfl⟩

namespace Tableau

theorem valid_identity : (identity n).Valid := isHom_id.valid (fun _ => rfl) fun _ => rfl

theorem apply_identity (p : SPauli n) : (identity n).apply p = p := isHom_id.eq_apply (fun _ => rfl) (fun _ => rfl) p

theorem powProd_single (a : Fin n → SPauli m) (j : Fin n) : powProd a (Pi.single j 1) = a j := by
  unfold powProd
  rw [List.ofFn_eq_map]
  have key : ∀ l : List (Fin n), l.Nodup → (l.map fun i => bitPow (a i) ((Pi.single j 1 : Fin n → ZMod 2) i)).prod =
      if j ∈ l then a j else 1 := by
    intro l hl
    induction l with
    | nil => rfl
    | cons i l ih =>
      rw [List.map_cons, List.prod_cons, ih (List.nodup_cons.1 hl).2]
      by_cases hij : i = j
      · subst hij
        rw [if_neg (List.nodup_cons.1 hl).1, if_pos List.mem_cons_self]
        simp [bitPow]
      · have : bitPow (a i) ((Pi.single j 1 : Fin n → ZMod 2) i) = 1 := by
          simp [bitPow, Pi.single_eq_of_ne hij]
        rw [this, one_mul]
        exact if_congr (by simp [Ne.symm hij]) rfl rfl
  rw [key _ (List.nodup_finRange n), if_pos (List.mem_finRange j)]

theorem apply_X (T : Tableau n) (j : Fin n) : T.apply (SPauli.X j) = T.xs j := by
  rw [apply_eq, X_phase, SPauli.scalar_zero, one_mul, X_op, xPart_append, zPart_append, powProd_zero, mul_one, powProd_single]

theorem apply_Z (T : Tableau n) (j : Fin n) : T.apply (SPauli.Z j) = T.zs j := by
  rw [apply_eq, Z_phase, SPauli.scalar_zero, one_mul, Z_op, xPart_append, zPart_append, powProd_zero, one_mul, powProd_single]

variable {T U : Tableau n}

theorem Valid.andThen (hT : T.Valid) (hU : U.Valid) : (T.andThen U).Valid :=
  (hU.isHom.comp hT.isHom).valid (fun j => by simp [Tableau.andThen, apply_X]) fun j => by simp [Tableau.andThen, apply_Z]

theorem apply_andThen (hT : T.Valid) (hU : U.Valid) (p : SPauli n) : (T.andThen U).apply p = U.apply (T.apply p) :=
  (hU.isHom.comp hT.isHom).eq_apply (fun j => by simp [Tableau.andThen, apply_X])
    (fun j => by simp [Tableau.andThen, apply_Z]) p

/-! ## Inverse -/

theorem sform_nondeg {p : Fin (n + n) → ZMod 2} (h : ∀ q, sform p q = 0) : p = 0 := by
  rw [← append_parts p]
  have hx : xPart p = 0 := by
    funext j; rw [← sform_Z, sform_comm2]; exact h _
  have hz : zPart p = 0 := by
    funext j; rw [← sform_X, sform_comm2]; exact h _
  rw [hx, hz]
  funext i
  refine Fin.addCases (fun i => ?_) (fun i => ?_) i
  · rw [Fin.append_left]; rfl
  · rw [Fin.append_right]; rfl

theorem Valid.injective (hT : T.Valid) : Function.Injective T.apply := by
  intro p q e
  have h1 : p.op = q.op := by
    have h : p.op + q.op = 0 := by
      apply sform_nondeg
      intro r
      have := hT.isHom.sform (p * q) ⟨0, r⟩
      rw [hT.isHom.mul, e, mul_op, add_self_op] at this
      rw [← mul_op p q, ← this]
      unfold Spec.sform
      exact Finset.sum_eq_zero fun i _ => by simp [xPart, zPart]
    have h' := congrArg (· + q.op) h
    simp only [add_assoc, add_self_op, add_zero, zero_add] at h'
    exact h'
  have h2 : p = SPauli.scalar (p.phase - q.phase) * q := by
    rw [scalar_mul]; ext1
    · ring
    · exact h1
  rw [h2, hT.isHom.smul, mul_eq_right, ← SPauli.scalar_zero, scalar_inj] at e
  rw [h2, e, SPauli.scalar_zero, one_mul]

/-- Images of bits. -/
def opMap (T : Tableau n) (u : Fin (n + n) → ZMod 2) : Fin (n + n) → ZMod 2 := (T.apply ⟨0, u⟩).op

theorem apply_op (T : Tableau n) (p : SPauli n) : (T.apply p).op = T.opMap p.op := by
  unfold opMap
  rw [apply_eq, apply_eq, scalar_mul_op, scalar_mul_op]

theorem Valid.opMap_surj (hT : T.Valid) : Function.Surjective T.opMap := by
  apply Finite.injective_iff_surjective.1
  intro u v e
  have : T.apply ⟨0, u⟩ = T.apply ⟨(T.apply ⟨0, u⟩).phase - (T.apply ⟨0, v⟩).phase, v⟩ := by
    have h2 : (⟨(T.apply ⟨0, u⟩).phase - (T.apply ⟨0, v⟩).phase, v⟩ : SPauli n) =
        SPauli.scalar ((T.apply ⟨0, u⟩).phase - (T.apply ⟨0, v⟩).phase) * ⟨0, v⟩ := by
      rw [scalar_mul]; simp
    rw [h2, hT.isHom.smul, scalar_mul]
    ext1
    · simp
    · exact e
  exact congrArg SPauli.op (hT.injective this)

theorem Valid.apply_preimage (hT : T.Valid) (p : SPauli n) : T.apply (T.preimage p) = p := by
  obtain ⟨u, hu⟩ := hT.opMap_surj p.op
  have hbits : (Fin.append (fun j => Spec.sform p.op (T.zs j).op) (fun j => Spec.sform p.op (T.xs j).op)
      : Fin (n + n) → ZMod 2) = u := by
    rw [← append_parts u]
    have h1 : (fun j => Spec.sform p.op (T.zs j).op) = xPart u := by
      funext j
      rw [← hu, ← apply_Z T j, opMap, hT.isHom.sform, sform_comm2, sform_Z]
    have h2 : (fun j => Spec.sform p.op (T.xs j).op) = zPart u := by
      funext j
      rw [← hu, ← apply_X T j, opMap, hT.isHom.sform, sform_comm2, sform_X]
    rw [h1, h2]
  unfold preimage
  simp only [hbits]
  rw [hT.isHom.smul, scalar_mul]
  ext1
  · ring
  · change (T.apply (plus u)).op = p.op
    rw [apply_op, ← hu]; rfl

theorem Valid.preimage_apply (hT : T.Valid) (p : SPauli n) : T.preimage (T.apply p) = p :=
  hT.injective (hT.apply_preimage _)

theorem Valid.isHom_preimage (hT : T.Valid) : IsHom T.preimage where
  mul p q := hT.injective (by rw [hT.isHom.mul, hT.apply_preimage, hT.apply_preimage, hT.apply_preimage])
  scalar a := hT.injective (by rw [hT.apply_preimage, hT.isHom.scalar])

theorem Valid.inverse (hT : T.Valid) : T.inverse.Valid := hT.isHom_preimage.valid (fun _ => rfl) fun _ => rfl

theorem Valid.apply_inverse (hT : T.Valid) (p : SPauli n) : T.inverse.apply p = T.preimage p :=
  hT.isHom_preimage.eq_apply (fun _ => rfl) (fun _ => rfl) p

/-- `inverse` is the inverse. -/
theorem Valid.apply_apply_inverse (hT : T.Valid) (p : SPauli n) : T.apply (T.inverse.apply p) = p := by
  rw [hT.apply_inverse, hT.apply_preimage]

theorem Valid.inverse_apply_apply (hT : T.Valid) (p : SPauli n) : T.inverse.apply (T.apply p) = p := by
  rw [hT.apply_inverse, hT.preimage_apply]

end Tableau

theorem getD_mem_of_lt {α : Type} {l : List α} {i : ℕ} (d : α) (h : i < l.length) : l.getD i d ∈ l := by
  rw [List.getD_eq_getElem _ _ h]; exact List.getElem_mem _

/-- Tableaus of operators with the sign `+`. -/
theorem valid_tableauOf {xs zs : Rows (ZMod 2) (n + n)} (h : IsTableau xs zs) : (tableauOf xs zs).Valid where
  sx _ := signed_plus _
  sz _ := signed_plus _
  xx i j := h.xx _ (getD_mem_of_lt 0 (by rw [h.lenX]; exact i.isLt)) _ (getD_mem_of_lt 0 (by rw [h.lenX]; exact j.isLt))
  zz i j := h.zz _ (getD_mem_of_lt 0 (by rw [h.lenZ]; exact i.isLt)) _ (getD_mem_of_lt 0 (by rw [h.lenZ]; exact j.isLt))
  xz i j := by
    change sform (xs.getD i 0) (zs.getD j 0) = _
    have hi : i.val < xs.length := by rw [h.lenX]; exact i.isLt
    have hj : j.val < zs.length := by rw [h.lenZ]; exact j.isLt
    rw [List.getD_eq_getElem _ _ hi, List.getD_eq_getElem _ _ hj, h.pair _ _ hi hj]
    exact if_congr Fin.ext_iff.symm rfl rfl

end QLDPC
