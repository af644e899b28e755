/-!
# 64-bit weight kernels of `/repo/qldpc/codes/distance.py`

`np.uint` is a 64-bit unsigned integer with wrap-around, modelled by `BitVec 64`.
-/

namespace QLDPC

/-- `_mask55` (`/repo/qldpc/codes/distance.py:8`). -/
def mask55 : BitVec 64 := 0x5555555555555555#64
/-- `_mask33` (`/repo/qldpc/codes/distance.py:9`). -/
def mask33 : BitVec 64 := 0x3333333333333333#64
/-- `_mask0F` (`/repo/qldpc/codes/distance.py:10`). -/
def mask0F : BitVec 64 := 0x0F0F0F0F0F0F0F0F#64
/-- `_mask01` (`/repo/qldpc/codes/distance.py:11`). -/
def mask01 : BitVec 64 := 0x0101010101010101#64

/-- The common tail of the two kernels (`/repo/qldpc/codes/distance.py:28-40` and `57-68`):
add up 2-bit fields, then 4-bit fields, then bytes. -/
def sumFields (out : BitVec 64) : BitVec 64 :=
  let buf := (out >>> 2) &&& mask33
  let out := out &&& mask33
  let out := out + buf
  let buf := out >>> 4
  let out := out + buf
  let out := out &&& mask0F
  let out := out * mask01
  out >>> 56

/-- `_hamming_weight` (`/repo/qldpc/codes/distance.py:14-40`) and `_hamming_weight_single`
(`71-88`) on one word; the in-place buffers are modelled by values. -/
def hammingKernel (arr : BitVec 64) : BitVec 64 :=
  let out := arr >>> 1
  let out := out &&& mask55
  let out := arr - out
  sumFields out

/-- `_symplectic_weight` (`/repo/qldpc/codes/distance.py:43-68`) and `_symplectic_weight_single`
(`91-108`) on one word. -/
def symplecticKernel (arr : BitVec 64) : BitVec 64 :=
  let out := arr >>> 1
  let out := out ||| arr
  let out := out &&& mask55
  sumFields out

end QLDPC
