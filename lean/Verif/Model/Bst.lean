import Verif.Model.Binary
import Verif.Model.Float

/-!
# The binary-search quantiser, internal/io/binary/util.go:38-76
-/

namespace Rap

/-- The constants 2.0 and 4.0. -/
def f2 : F64 := 0x4000000000000000
def f4 : F64 := 0x4010000000000000

/-- A byte from its bits, least significant first: the `out[byteIndex] | (1 << bitIndex)` updates
(internal/io/binary/util.go:45-51), and the same updates in format/encoding/position/oct24.go:13-22. -/
def byteOfBits : List Bool → UInt8
  | [] => 0
  | b :: bs => (if b then (1 : UInt8) else 0) ||| (byteOfBits bs <<< 1)

/-- The bits of a byte, least significant first: `(in[byteIndex]>>byte(bitIndex))&1` for `bitIndex` 0..7
(internal/io/binary/util.go:64-65). -/
def bitsOfByte (b : UInt8) : List Bool :=
  [b &&& 1 == 1, (b >>> 1) &&& 1 == 1, (b >>> 2) &&& 1 == 1, (b >>> 3) &&& 1 == 1,
   (b >>> 4) &&& 1 == 1, (b >>> 5) &&& 1 == 1, (b >>> 6) &&& 1 == 1, (b >>> 7) &&& 1 == 1]

/-- `n` bytes from `8 * n` bits. -/
def packBits : (n : Nat) → List Bool → Bytes
  | 0, _ => []
  | n + 1, bits => byteOfBits (bits.take 8) :: packBits n (bits.drop 8)

/-- All bits of a byte list. -/
def unpackBits (b : Bytes) : List Bool := b.flatMap bitsOfByte

/-- The decisions of `UnsignedFloatBSTToBytes` (internal/io/binary/util.go:47-55): `k` bits left, `cur` is `curValue`,
`inc` is `increment`. -/
def bstEncBits (value : F64) : (k : Nat) → (cur inc : F64) → List Bool
  | 0, _, _ => []
  | k + 1, cur, inc =>
    if value.lt cur then false :: bstEncBits value k (cur.sub inc) (inc.div f2)
    else true :: bstEncBits value k (cur.add inc) (inc.div f2)

/-- `UnsignedFloatBSTToBytes` (internal/io/binary/util.go:38-57) into a buffer of `n` bytes. -/
def bstEnc (value start duration : F64) (n : Nat) : Bytes :=
  packBits n (bstEncBits value (8 * n) (start.add (duration.div f2)) (duration.div f4))

/-- The loop of `BytesToUnisngedFloatBST` (internal/io/binary/util.go:64-72). -/
def bstDecBits : List Bool → (cur inc : F64) → F64
  | [], cur, _ => cur
  | true :: bs, cur, inc => bstDecBits bs (cur.add inc) (inc.div f2)
  | false :: bs, cur, inc => bstDecBits bs (cur.sub inc) (inc.div f2)

/-- `BytesToUnisngedFloatBST` (internal/io/binary/util.go:59-76). -/
def bstDec (start duration : F64) (b : Bytes) : F64 :=
  bstDecBits (unpackBits b) (start.add (duration.div f2)) (duration.div f4)

end Rap
