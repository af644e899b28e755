import Verif.Model.Groups
import Verif.Model.GroupBuild
import Verif.Model.Product
import Verif.Model.Graph

/-!
# Quasi-cyclic and bivariate bicycle codes

`/repo/qldpc/codes/quantum.py:171-628`.  A sympy polynomial is a list of terms, a term is an integer coefficient together
with a dictionary from symbols to exponents.  `S` is the type of names of symbols, with the order of strings.
-/

namespace QLDPC

/-- A monomial with its coefficient: `get_coefficient_and_exponents` (`/repo/qldpc/codes/quantum.py:275-295`) takes
`5 x**3 y**2` to `(5, {x: 3, y: 2})`. -/
structure Term (S : Type) where
  coeff : ℤ
  exps : List (S × ℤ)
  deriving DecidableEq

/-- The argument `orders`: a sequence or a dictionary. -/
inductive OrdersArg (S : Type) where
  | seq (l : List ℕ)
  | dict (d : List (S × ℕ))

/-- `len(orders)`. -/
def OrdersArg.length {S : Type} : OrdersArg S → ℕ
  | .seq l => l.length
  | .dict d => d.length

section Symbols

variable {S : Type} [DecidableEq S]

/-- `d[key] = value`. -/
def dictSet {V : Type} : List (S × V) → S → V → List (S × V)
  | [], k, v => [(k, v)]
  | e :: d, k, v => if e.1 = k then (k, v) :: d else e :: dictSet d k v

/-- `poly_a.free_symbols | poly_b.free_symbols`, without repetition, in the order of appearance. -/
def freeSymbols (a b : List (Term S)) : List S := ((a ++ b).flatMap fun t => t.exps.map Prod.fst).dedup

/-- The loop that adds placeholder symbols (`/repo/qldpc/codes/quantum.py:226-229`).  `fresh` is the symbol
`"~" + "".join(map(str, symbols))`, which is the same in every round.  The first argument limits the number of rounds;
the result is `none` if the loop has not ended by then. -/
def placeholderLoop (fresh : S) (orders : List ℕ) : ℕ → List (S × ℕ) → Option (List (S × ℕ))
  | 0, _ => none
  | fuel + 1, d =>
    if d.length < orders.length then placeholderLoop fresh orders fuel (dictSet d fresh (orders.getD d.length 0)) else some d

/-- `symbol_to_order` (`/repo/qldpc/codes/quantum.py:212-229`); `symbols` is the sorted list of free symbols. The outer
`none` means that the loop has not ended, the inner one that an exception is raised. -/
def symbolOrders (fuel : ℕ) (fresh : S) (symbols : List S) (arg : OrdersArg S) : Option (Option (List (S × ℕ))) :=
  if arg.length < symbols.length then some none
  else
    match arg with
    | .dict d => some (some d)
    | .seq l => (placeholderLoop fresh l fuel (symbols.zip l)).map some

end Symbols

section Members

/-- Array form of the inverse permutation. -/
def invPerm (degree : ℕ) (g : ℕ → ℕ) : ℕ → ℕ := fun x => if x < degree then (arrayForm degree g).idxOf x else x

/-- `gen ** exponent` of sympy permutations, also for negative exponents. -/
def permPow (degree : ℕ) (g : ℕ → ℕ) : ℤ → ℕ → ℕ
  | .ofNat k => g^[k]
  | .negSucc k => (invPerm degree g)^[k + 1]

variable {S : Type} [DecidableEq S]

/-- `symbol_gens` (`/repo/qldpc/codes/quantum.py:231-237`). -/
def symbolGens (drop : Bool) (d : List (S × ℕ)) : List (S × (ℕ → ℕ)) :=
  (d.map Prod.fst).zip (sympyGens drop (d.map Prod.snd).sum (abelianGens 0 (d.map Prod.snd)))

/-- `to_group_member` (`/repo/qldpc/codes/quantum.py:263-273`), as an array form; `none` if a symbol is missing in
`symbol_gens`. -/
def toGroupMember (degree : ℕ) (gens : List (S × (ℕ → ℕ))) (exps : List (S × ℤ)) : Option (List ℕ) :=
  exps.foldl (fun acc e => acc.bind fun p => (gens.lookup e.1).map fun g =>
    arrayMulList p (arrayForm degree (permPow degree g e.2))) (some (List.range degree))

variable {F : Type} [Field F] [DecidableEq F]

/-- `eval` of a monomial (`/repo/qldpc/codes/quantum.py:246-252`).  `coeffOf` makes an element of the field of an
integer, and fails for integers that are not accepted. -/
def evalTerm (coeffOf : ℤ → Option F) (degree : ℕ) (gens : List (S × (ℕ → ℕ))) (t : Term S) : Option (RMember F (List ℕ)) :=
  (toGroupMember degree gens t.exps).bind fun g => (coeffOf t.coeff).map fun c => RMember.ofTerms [(c, g)]

/-- The loop of `eval` over the terms of a sum (`/repo/qldpc/codes/quantum.py:254-257`). -/
def evalSum (coeffOf : ℤ → Option F) (degree : ℕ) (gens : List (S × (ℕ → ℕ))) :
    RMember F (List ℕ) → List (Term S) → Option (RMember F (List ℕ))
  | x, [] => some x
  | x, t :: ts => (evalTerm coeffOf degree gens t).bind fun y => evalSum coeffOf degree gens (x.add y) ts

/-- `eval` (`/repo/qldpc/codes/quantum.py:246-257`): a single term is a monomial, otherwise there is a sum. -/
def evalPoly (coeffOf : ℤ → Option F) (degree : ℕ) (gens : List (S × (ℕ → ℕ))) : List (Term S) → Option (RMember F (List ℕ))
  | [t] => evalTerm coeffOf degree gens t
  | ts => evalSum coeffOf degree gens RMember.zero ts

/-- The lift of `AbelianGroup` for a permutation in array form, with entries in the field. -/
def arrayLift (orders : List ℕ) (p : List ℕ) : Matrix (Fin orders.prod) (Fin orders.prod) F :=
  fun i j => (abelianLift orders (fun x => p.getD x x) i j : F)

/-- `eval(poly).lift().T` (`/repo/qldpc/codes/quantum.py:240-241`). -/
def liftedTranspose (orders : List ℕ) (x : RMember F (List ℕ)) : Rows F orders.prod :=
  List.ofFn fun i j => x.lift (arrayLift orders) j i

/-- The matrices of a `QCCode` for given orders of the symbols (`/repo/qldpc/codes/quantum.py:231-244`). -/
def qcMatrices (drop : Bool) (coeffOf : ℤ → Option F) (d : List (S × ℕ)) (polyA polyB : List (Term S)) :
    Option (Rows F ((d.map Prod.snd).prod + (d.map Prod.snd).prod) × Rows F ((d.map Prod.snd).prod + (d.map Prod.snd).prod)) :=
  (evalPoly coeffOf (d.map Prod.snd).sum (symbolGens drop d) polyA).bind fun a =>
    (evalPoly coeffOf (d.map Prod.snd).sum (symbolGens drop d) polyB).bind fun b =>
      tbCode false (liftedTranspose (d.map Prod.snd) a) (liftedTranspose (d.map Prod.snd) b)

/-- `QCCode(orders, poly_a, poly_b)` (`/repo/qldpc/codes/quantum.py:198-244`): the dictionary of orders and the two
matrices. -/
def qcCode [LinearOrder S] (fuel : ℕ) (drop : Bool) (fresh : S) (coeffOf : ℤ → Option F) (arg : OrdersArg S)
    (polyA polyB : List (Term S)) :
    Option (Option (Σ d : List (S × ℕ), Rows F ((d.map Prod.snd).prod + (d.map Prod.snd).prod) ×
      Rows F ((d.map Prod.snd).prod + (d.map Prod.snd).prod))) :=
  (symbolOrders fuel fresh ((freeSymbols polyA polyB).insertionSort (· ≤ ·)) arg).map fun r => r.bind fun d =>
    (qcMatrices drop coeffOf d polyA polyB).map fun m => ⟨d, m⟩

end Members

/-! ### Layout of bivariate bicycle codes -/

/-- The sectors of a plaquette. -/
inductive Sector where
  | L | R | X | Z
  deriving DecidableEq

/-- `get_node_label_from_orders` (`/repo/qldpc/codes/quantum.py:418-431`); `np.unravel_index` raises if the index is out of
range. -/
def nodeLabel (node : Node) (rx ry : ℕ) : Option (Sector × ℕ × ℕ) :=
  if 0 ≤ node.index ∧ node.index < 2 * rx * ry then
    let ss := node.index.toNat / (rx * ry)
    let aa := node.index.toNat / ry % rx
    let bb := node.index.toNat % ry
    some (if node.isData then (if ss = 0 then .L else .R) else (if ss = 0 then .X else .Z), aa, bb)
  else none

/-- The folding of a coordinate (`/repo/qldpc/codes/quantum.py:462-464`). -/
def foldCoord (order x : ℕ) : ℤ := if x < order then 2 * x else (2 * order - 1 - (x : ℤ)) * 2 + 1

/-- `get_qubit_pos_from_orders` for a label (`/repo/qldpc/codes/quantum.py:455-464`). -/
def qubitPos (label : Sector × ℕ × ℕ) (folded : Bool) (rx ry : ℕ) : ℤ × ℤ :=
  let xx := 2 * label.2.1 + if label.1 = .R ∨ label.1 = .X then 1 else 0
  let yy := 2 * label.2.2 + if label.1 = .L ∨ label.1 = .X then 1 else 0
  if folded then (foldCoord rx xx, foldCoord ry yy) else ((xx : ℤ), (yy : ℤ))

/-! ### Arithmetic on the torus of plaquettes -/

/-- `get_order` (`/repo/qldpc/codes/quantum.py:602-609`). -/
def torusOrder (rx ry : ℕ) (v : ℤ × ℤ) : ℕ :=
  let p0 := rx / Int.gcd v.1 rx
  let p1 := ry / Int.gcd v.2 ry
  p0 * p1 / Nat.gcd p0 p1

/-- `x * u + y * v` on the torus. -/
def torusPoint (rx ry : ℕ) (u v : ℤ × ℤ) (x y : ℕ) : ℤ × ℤ :=
  ((x * u.1 + y * v.1) % rx, (x * u.2 + y * v.2) % ry)

/-- `modular_inverse` (`/repo/qldpc/codes/quantum.py:582-600`). -/
def modularInverse (rx ry : ℕ) (basis : (ℤ × ℤ) × (ℤ × ℤ)) (aa bb : ℤ) : Option (ℕ × ℕ) :=
  ((List.range (torusOrder rx ry basis.1)).flatMap fun xx =>
    (List.range (torusOrder rx ry basis.2)).map fun yy => (xx, yy)).find? fun p =>
      (aa % rx, bb % ry) = torusPoint rx ry basis.1 basis.2 p.1 p.2

/-- `is_valid_basis` (`/repo/qldpc/codes/quantum.py:611-628`); `len(self) // 2` is the number of plaquettes. -/
def isValidBasis (rx ry : ℕ) (u v : ℤ × ℤ) : Bool :=
  if torusOrder rx ry u * torusOrder rx ry v ≠ 2 * rx * ry / 2 then false
  else
    let reached := (List.range (torusOrder rx ry u)).flatMap fun aa =>
      (List.range (torusOrder rx ry v)).map fun bb => torusPoint rx ry u v aa bb
    (List.range rx).all fun x => (List.range ry).all fun y => decide (((x : ℤ), (y : ℤ)) ∈ reached)

/-- One exponent of `get_canonical_form` (`/repo/qldpc/codes/quantum.py:310-312`): `new_exponent > order / 2`. -/
def canonicalExponent (e : ℤ) (order : ℕ) : ℤ :=
  if (order : ℤ) < 2 * (e % order) then e % order - order else e % order

/-- One term of `get_canonical_form` (`/repo/qldpc/codes/quantum.py:304-314`): the coefficient is multiplied in once per
symbol.  Symbols that are not among the symbols of the code are dropped. -/
def canonicalTerm {S : Type} [DecidableEq S] (d : List (S × ℕ)) (t : Term S) : Term S :=
  { coeff := t.coeff ^ d.length, exps := d.map fun e => (e.1, canonicalExponent ((t.exps.lookup e.1).getD 0) e.2) }

/-- `poly.args` of a sympy expression: the terms of a sum; the factors of a product; base and exponent of a power; nothing
for a symbol or an integer.  An integer factor comes first. -/
def polyArgs {S : Type} : List (Term S) → List (Term S)
  | [] => []
  | [t] =>
    match t.exps with
    | [] => []
    | [(s, e)] => if t.coeff = 1 then (if e = 1 then [] else [⟨1, [(s, 1)]⟩, ⟨e, []⟩]) else [⟨t.coeff, []⟩, ⟨1, [(s, e)]⟩]
    | es => (if t.coeff = 1 then [] else [⟨t.coeff, []⟩]) ++ es.map fun p => ⟨1, [p]⟩
  | ts => ts

/-- `get_canonical_form` (`/repo/qldpc/codes/quantum.py:297-318`), as a list of terms that are added up. -/
def canonicalForm {S : Type} [DecidableEq S] (d : List (S × ℕ)) (poly : List (Term S)) : List (Term S) :=
  (polyArgs poly).map (canonicalTerm d)

end QLDPC
