import Verif.Model.Classical
import Verif.Model.Text

/-!
# BCH and Reed-Solomon codes: `/repo/qldpc/codes/classical.py:105-137`

The parity check matrices come from the package galois; they are parameters.  Modelled are the test of the block length
and what is recorded of the code.
-/

namespace QLDPC

/-- `'0123456789ABCDEFGHIJKLMNOPQRSTUVWXYZ'` of `np.base_repr`. -/
def reprDigits : List Char := "0123456789ABCDEFGHIJKLMNOPQRSTUVWXYZ".toList

/-- The loop of `np.base_repr`: `while num: res.append(digits[num % base]); num //= base`. -/
def reprLoop (base : ℕ) : ℕ → ℕ → List Char
  | 0, _ => []
  | fuel + 1, num => if num = 0 then [] else reprDigits.getD (num % base) '?' :: reprLoop base fuel (num / base)

/-- `np.base_repr(number, base=base)`. -/
def baseRepr (number base : ℤ) : Except String (List Char) :=
  if 36 < base ∨ base < 2 then .error "ValueError"
  else
    let res := reprLoop base.toNat (number.natAbs + 1) number.natAbs ++ if number < 0 then ['-'] else []
    .ok (if res = [] then ['0'] else res.reverse)

/-- `field or DEFAULT_FIELD_ORDER` (`/repo/qldpc/codes/classical.py:129`). -/
def fieldOrDefault : Option ℤ → ℤ
  | none => 2
  | some q => if q = 0 then 2 else q

/-- The test of the block length (`/repo/qldpc/codes/classical.py:129-135`). -/
def bchCheck (length : ℤ) (field : Option ℤ) : Except String Unit :=
  let field := fieldOrDefault field
  (baseRepr length field).bind fun text =>
    if text = (List.replicate text.length (intText (field - 1))).flatten then .ok () else .error "ValueError"

/-- `BCHCode(length, dimension, field)` (`/repo/qldpc/codes/classical.py:128-137`), for the field with as many elements as
`field` says; `bch` is the matrix `galois.BCH(length, dimension, field).H` or the name of an exception. -/
def bchCode {F : Type} [Field F] [DecidableEq F] {n : ℕ} (bch : ℤ → ℤ → Except String (Rows F n)) (length : ℤ)
    (dimension : ℕ) (field : Option ℤ) : Except String (CCode F n) :=
  (bchCheck length field).bind fun _ => (bch length dimension).map fun H => { matrix := H, dim? := some dimension }

/-- `ReedSolomonCode(bits, dimension)` (`/repo/qldpc/codes/classical.py:114-116`); `rs` is the matrix
`galois.ReedSolomon(bits, dimension).H` or the name of an exception. -/
def reedSolomonCode {F : Type} [Field F] [DecidableEq F] {n : ℕ} (rs : ℤ → ℤ → Except String (Rows F n)) (bits : ℤ)
    (dimension : ℕ) : Except String (CCode F n) :=
  (rs bits dimension).map fun H => { matrix := H, dim? := some dimension }

end QLDPC
