import Verif.Model.Prog

/-!
# internal/io/binary: integers, strings, byte blocks

Readers return `(value, bytes read, error)` like the Go functions, because callers use the value even when the error
is set.
-/

namespace Rap

/-- `binary.PutUvarint` of the standard library (used in internal/io/binary/uint.go:13,17, string.go:13,35, bytes.go:14
and throughout format/io). -/
def putUvarint (x : Nat) : Bytes :=
  if x < 0x80 then [x.toUInt8]
  else (x.toUInt8 ||| 0x80) :: putUvarint (x >>> 7)
termination_by x
decreasing_by simp only [Nat.shiftRight_eq_div_pow]; omega

/-- The loop of `ReadUvarint` (internal/io/binary/util.go:20-35). `fuel` is the number of iterations left
(`MaxVarintLen64 = 10` at the start), `b` the one-byte buffer, which keeps its old content if `Read` delivers
nothing. The standard library's `binary.ReadUvarint` on an `io.ByteReader` makes the same reads. -/
def readUvarintLoop : (fuel i : Nat) → (b : UInt8) → (x s totalRead : Nat) → Prog (Nat × Nat × Option Err)
  | 0, _, _, x, _, totalRead => .pure (x, totalRead, some .overflow)
  | fuel + 1, i, b, x, s, totalRead =>
    .read 1 fun got err =>
      let b := got.headD b
      let totalRead := totalRead + got.length
      match err with
      | some e => .pure (x, totalRead, some e)
      | none =>
        if b < 0x80 then
          if i == 9 && b > 1 then .pure (x, totalRead, some .overflow)
          else .pure (u64 (x ||| b.toNat <<< s), i + 1, none)
        else
          readUvarintLoop fuel (i + 1) b (u64 (x ||| (b &&& 0x7f).toNat <<< s)) (s + 7) totalRead

/-- `ReadUvarint` (internal/io/binary/util.go:13-36). -/
def readUvarint : Prog (Nat × Nat × Option Err) := readUvarintLoop 10 0 0 0 0 0

/-- `UvarintArrayToBytes` (internal/io/binary/uint.go:9-21). -/
def uvarintArrayToBytes (xs : List Nat) : Bytes :=
  putUvarint (u64 xs.length) ++ (xs.map fun x => putUvarint (u64 x)).flatten

/-- The loop of `ReadUvarIntArray` (internal/io/binary/uint.go:30-37): `k` elements left. -/
def readUvarIntLoop : (k : Nat) → (acc : List Nat) → (bytesRead : Nat) → Prog (List Nat × Nat × Option Err)
  | 0, acc, bytesRead => pure (acc.reverse, bytesRead, none)
  | k + 1, acc, bytesRead => do
    let (str, read, err) ← readUvarint
    let bytesRead := bytesRead + read
    match err with
    | some e => pure ([], bytesRead, some e)
    | none => readUvarIntLoop k (str :: acc) bytesRead

/-- `ReadUvarIntArray` (internal/io/binary/uint.go:23-40). -/
def readUvarIntArray : Prog (List Nat × Nat × Option Err) := do
  let (len, bytesRead, err) ← readUvarint
  match err with
  | some e => pure ([], bytesRead, some e)
  | none =>
    Prog.make len 8
    readUvarIntLoop len [] bytesRead

/-- `StringToBytes` (internal/io/binary/string.go:9-16). -/
def stringToBytes (s : Bytes) : Bytes := putUvarint (u64 s.length) ++ s

/-- `ReadString` (internal/io/binary/string.go:18-31). -/
def readString : Prog (Bytes × Nat × Option Err) := do
  let (len, bytesRead, err) ← readUvarint
  match err with
  | some e => pure ([], bytesRead, some e)
  | none =>
    Prog.make len 1
    .readFull len fun buf err =>
      match err with
      | some e => .pure ([], bytesRead + buf.length, some e)
      | none => .pure (buf, bytesRead + buf.length, none)

/-- `StringArrayToBytes` (internal/io/binary/string.go:33-44). -/
def stringArrayToBytes (strs : List Bytes) : Bytes :=
  putUvarint (u64 strs.length) ++ (strs.map stringToBytes).flatten

/-- The loop of `ReadStringArray` (internal/io/binary/string.go:53-60). -/
def readStringLoop : (k : Nat) → (acc : List Bytes) → (bytesRead : Nat) → Prog (List Bytes × Nat × Option Err)
  | 0, acc, bytesRead => pure (acc.reverse, bytesRead, none)
  | k + 1, acc, bytesRead => do
    let (str, read, err) ← readString
    let bytesRead := bytesRead + read
    match err with
    | some e => pure ([], bytesRead, some e)
    | none => readStringLoop k (str :: acc) bytesRead

/-- `ReadStringArray` (internal/io/binary/string.go:46-63). -/
def readStringArray : Prog (List Bytes × Nat × Option Err) := do
  let (len, bytesRead, err) ← readUvarint
  match err with
  | some e => pure ([], bytesRead, some e)
  | none =>
    Prog.make len 16
    readStringLoop len [] bytesRead

/-- `BytesArrayToBytes` (internal/io/binary/bytes.go:10-19). -/
def bytesArrayToBytes (b : Bytes) : Bytes := putUvarint (u64 b.length) ++ b

/-- `ReadBytesArray` (internal/io/binary/bytes.go:23-40). A nil result is modelled by the empty list; no caller
distinguishes them. -/
def readBytesArray : Prog (Bytes × Nat × Option Err) := do
  let (len, bytesRead, err) ← readUvarint
  match err with
  | some e => pure ([], bytesRead, some e)
  | none =>
    Prog.make len 1
    .readFull len fun out err =>
      if err.isSome && err != some .eof then .pure ([], out.length + bytesRead, err)
      else if out.length != len then .pure ([], out.length + bytesRead, some .unexpectedEOF)
      else .pure (out, out.length + bytesRead, none)

/-- Little-endian fixed-size encoding (`binary.Write`/`binary.LittleEndian.PutUint*`): `k` bytes of `n`. -/
def leBytes : (k : Nat) → (n : Nat) → Bytes
  | 0, _ => []
  | k + 1, n => n.toUInt8 :: leBytes k (n / 256)

/-- Little-endian fixed-size decoding (`binary.Read`/`binary.LittleEndian.Uint*`). -/
def leNat : Bytes → Nat
  | [] => 0
  | b :: bs => b.toNat + 256 * leNat bs

end Rap
